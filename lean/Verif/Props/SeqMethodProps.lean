import Verif.Lemmas.RbLossLemmas
import Verif.Lemmas.WorLossLemmas
import Verif.Props.ScoreProps

/-!
# Gradient estimators for decoded variables (C63, C64, C65)
-/

namespace Storch

open MeasureTheory Storch.Gumbel Storch.Decode

/-! ## C63 -/

section
variable {E : Type _} [NormedAddCommGroup E] [NormedSpace ℝ E] {θ₀ : E}

/-- `r` is the surrogate loss of `RaoBlackwellSF` with `k` samples, where `u` are the uniform random numbers behind the
Gumbel variables, which are conditioned on zero (swor.py:65-66, 90).  The value `-1e10` (mapo.py:73) stands for minus
infinity here: no Gumbel variable is that small in the floating-point numbers of torch. -/
def RBLossRun (hook : UnwrapHook (AD E θ₀)) (cast : AD E θ₀ → AD E θ₀) (top : Nat → List ℝ → List Nat)
    (amax : List (WithBot ℝ) → Nat) (k : Nat) (name : String) (dom : Nat) (logp : E → Nat → ℝ) (costs : List (E → ℝ → ℝ))
    (u : Fin dom → ℝ) (r : STen (AD E θ₀)) : Prop :=
  ∃ g, condGumbelSample ((List.range dom).map (logp θ₀)) (List.ofFn (fun i => gumbelOf (u i))) 0 = .ok g ∧
    rbLoss hook cast top amax ⊥ k name dom logp (fun _ _ t => ((g.getD t 0 : ℝ) : WithBot ℝ)) costs = .ok r

theorem sum_costs_swap {ι : Type _} (R : Finset ι) (q : ι → ℝ) {β : Type _} (g : ι → β → ℝ) (l : List β) :
    ∑ j ∈ R, q j * (l.map (g j)).sum = (l.map (fun f => ∑ j ∈ R, q j * g j f)).sum := by
  induction l with
  | nil => simp
  | cons a l ih =>
    simp only [List.map_cons, List.sum_cons, mul_add, Finset.sum_add_distrib, ih]

/-- C63, for one variable without plates and independent dimensions that has at least `k` values, where the samples have
floating-point type: with the uniform random numbers `u` the surrogate loss is `loss u`, without plates and dimensions; its
expectation, as a function of the parameters, is the expected cost, and so are its derivatives of all orders.
Missing: samples of integer type (`C63_refuted`), several variables (`C48_refuted`). -/
theorem C63_partial {hook : UnwrapHook (AD E θ₀)} (hh : PlainHook hook) {top : Nat → List ℝ → List Nat}
    {amax : List (WithBot ℝ) → Nat} (ht : TopOf top) (ha : MaxOf amax) {k : Nat} (hk : 2 ≤ k) (name : String) {dom : Nat}
    (hkD : k ≤ dom) (logp : E → Nat → ℝ) (hN : ∑ t : Fin dom, Real.exp (logp θ₀ t) = 1) {costs : List (E → ℝ → ℝ)}
    (hne : costs ≠ []) :
    ∃ loss : (Fin dom → ℝ) → E → ℝ,
      (∀ u, ∃ r, RBLossRun hook id top amax k name dom logp costs u r ∧ r.plates = [] ∧ r.ten.shape = [] ∧
        r.ten.get [] = loss u) ∧
      (∀ θ, ∫ u, loss u θ ∂cube dom = (costs.map (fun f => ∑ t : Fin dom, Real.exp (logp θ t) * f θ t)).sum) ∧
      ∀ (n : ℕ) (m : Fin n → E), (∀ t < dom, ContDiffAt ℝ n (fun θ => logp θ t) θ₀) →
        (∀ f ∈ costs, ∀ t < dom, ContDiffAt ℝ n (fun θ => f θ t) θ₀) →
        ∫ u, iteratedFDeriv ℝ n (loss u) θ₀ m ∂cube dom =
          iteratedFDeriv ℝ n (fun θ => (costs.map (fun f => ∑ t : Fin dom, Real.exp (logp θ t) * f θ t)).sum) θ₀ m := by
  set p : Fin dom → ℝ := fun t => Real.exp (logp θ₀ t) with hpdef
  have hp : ∀ i, 0 < p i := fun i => Real.exp_pos _
  have hm : k - 1 ≤ ((List.range dom).map (logp θ₀)).length := by rw [List.length_map, List.length_range]; omega
  set over := top (k - 1) ((List.range dom).map (logp θ₀)) with hover
  have hol : over.length = k - 1 := ht.len _ _ hm
  have hond : over.Nodup := ht.nodup _ _ hm
  have hor : ∀ i ∈ over, i < dom := by intro i hi; simpa using ht.inRange _ _ hm i hi
  set O : Finset (Fin dom) := Finset.univ.filter (fun i => (i : Nat) ∈ over) with hO
  set R : Finset (Fin dom) := Finset.univ.filter (fun i => (i : Nat) ∉ over) with hR
  have hsumO : ∀ g : Nat → ℝ, (over.map g).sum = ∑ t ∈ O, g t := by
    intro g
    have h1 : (over.map g).sum = ∑ t ∈ over.toFinset, g t := by
      rw [List.sum_toFinset _ hond]
    rw [h1]
    refine (Finset.sum_bij (fun (i : Fin dom) _ => (i : Nat)) ?_ ?_ ?_ ?_).symm
    · intro i hi; simpa [hO] using hi
    · intro i _ j _ h; exact Fin.ext h
    · intro t htm
      have htm' : t ∈ over := by simpa using htm
      exact ⟨⟨t, hor t htm'⟩, by simpa [hO] using htm', rfl⟩
    · intro i _; rfl
  have hsplit : ∀ g : Fin dom → ℝ, ∑ t ∈ O, g t + ∑ t ∈ R, g t = ∑ t, g t :=
    fun g => Finset.sum_filter_add_sum_filter_not _ _ _
  -- the loss, given the sample
  set lossJ : Fin dom → E → ℝ := fun j θ => (costs.map (fun f => ∑ t ∈ O, Real.exp (logp θ t) * f θ t +
    (∑ t ∈ R, p t) * (Real.exp (logp θ j - logp θ₀ j) * f θ j))).sum with hlossJ
  have key : ∀ u : Fin dom → ℝ, ∃ x : Fin dom, x ∈ R ∧ (∀ i ∈ R, gum p u i ≤ gum p u x) ∧
      ∃ r, RBLossRun hook id top amax k name dom logp costs u r ∧ r.plates = [] ∧ r.ten.shape = [] ∧
        r.ten.get [] = lossJ x := by
    intro u
    obtain ⟨g, s, x, g1, g2, g3, g4, g5⟩ := rb_draw ht ha hk (logp θ₀) hkD u
    obtain ⟨r, r1, r2, r3, r4⟩ := rb_loss_full hh id hk name logp hol g2 g3 hne
    refine ⟨x, by simpa [hR] using g4, fun i hi => g5 i (by simpa [hR] using hi), r, ⟨g, g1, r1⟩, r2, r3, ?_⟩
    funext θ
    rw [r4 θ]
    have hPR : 1 - (over.map (fun t => Real.exp (logp θ₀ t))).sum = ∑ t ∈ R, p t := by
      have := hsplit p
      rw [hsumO (fun t => Real.exp (logp θ₀ t))]
      rw [hN] at this
      linarith
    simp only [hPR]
    simp only [hsumO]
    rfl
  choose J hJ1 hJ2 hJ3 using key
  have hRne : R.Nonempty := ⟨J (fun _ => 1 / 2), hJ1 _⟩
  have hP : 0 < ∑ i ∈ R, p i := Finset.sum_pos (fun i _ => hp i) hRne
  have hq : ∑ j ∈ R, p j / (∑ i ∈ R, p i) = 1 := by rw [← Finset.sum_div, div_self hP.ne']
  have hmix : ∀ θ, ∑ j ∈ R, p j / (∑ i ∈ R, p i) * lossJ j θ =
      (costs.map (fun f => ∑ t : Fin dom, Real.exp (logp θ t) * f θ t)).sum := by
    intro θ
    simp only [hlossJ]
    rw [sum_costs_swap]
    congr 1
    apply List.map_congr_left
    intro f _
    rw [← hsplit (fun t => Real.exp (logp θ t) * f θ t)]
    simp only [mul_add, Finset.sum_add_distrib]
    rw [← Finset.sum_mul, hq, one_mul]
    congr 1
    refine Finset.sum_congr rfl (fun j _ => ?_)
    have e : Real.exp (logp θ j) = p j * Real.exp (logp θ j - logp θ₀ j) := by
      rw [hpdef, ← Real.exp_add]; congr 1; ring
    rw [e]
    field_simp
  refine ⟨fun u => lossJ (J u), hJ3, ?_, ?_⟩
  · intro θ
    rw [gumbel_max hp hRne J (fun u _ => ⟨hJ1 u, hJ2 u⟩) (fun j => lossJ j θ), hmix]
  · intro n m hlp hf
    rw [gumbel_max hp hRne J (fun u _ => ⟨hJ1 u, hJ2 u⟩) (fun j => iteratedFDeriv ℝ n (lossJ j) θ₀ m)]
    have hsm : ∀ j, ContDiffAt ℝ n (lossJ j) θ₀ := by
      intro j
      refine contDiffAt_list_sum costs (fun f θ => ∑ t ∈ O, Real.exp (logp θ t) * f θ t +
        (∑ t ∈ R, p t) * (Real.exp (logp θ j - logp θ₀ j) * f θ j)) θ₀ (fun f hfm => ?_)
      refine ContDiffAt.add (ContDiffAt.sum (fun t _ => ((hlp t t.2).exp).mul (hf f hfm t t.2))) ?_
      exact contDiffAt_const.mul ((((hlp j j.2).sub contDiffAt_const).exp).mul (hf f hfm j j.2))
    have e1 : (fun θ => (costs.map (fun f => ∑ t : Fin dom, Real.exp (logp θ t) * f θ t)).sum) =
        fun θ => ∑ j ∈ R, (p j / (∑ i ∈ R, p i)) • lossJ j θ := by
      funext θ
      rw [← hmix θ]
      rfl
    rw [e1, iteratedFDeriv_fun_sum_apply (f := fun j θ => (p j / (∑ i ∈ R, p i)) • lossJ j θ)
      (fun j _ => (hsm j).const_smul _), ContinuousMultilinearMap.sum_apply]
    refine Finset.sum_congr rfl (fun j _ => ?_)
    rw [iteratedFDeriv_const_smul_apply' (hsm j)]
    rfl

omit [NormedAddCommGroup E] [NormedSpace ℝ E] in
/-- C63, if there are fewer than `k` values, for any type of samples and any random numbers: the surrogate loss is the
expected cost. -/
theorem C63_enumerated {hook : UnwrapHook (AD E θ₀)} (hh : PlainHook hook) (cast : AD E θ₀ → AD E θ₀)
    {top : Nat → List ℝ → List Nat} {amax : List (WithBot ℝ) → Nat} (ht : TopOf top) (ha : MaxOf amax) {low : WithBot ℝ}
    {k : Nat} (name : String) {dom : Nat} (hD : 2 ≤ dom) (hkD : dom < k) (logp : E → Nat → ℝ)
    (noise : Nat → Nat → Nat → WithBot ℝ) (hlow : ∀ e r t, low < noise e r t) {costs : List (E → ℝ → ℝ)} (hne : costs ≠ []) :
    ∃ r, rbLoss hook cast top amax low k name dom logp noise costs = .ok r ∧ r.plates = [] ∧ r.ten.shape = [] ∧
      ∀ θ, r.ten.get [] θ = (costs.map (fun f => ∑ t : Fin dom, Real.exp (logp θ t) * f θ t)).sum := by
  obtain ⟨s, tokens, h1, h2, h3⟩ := rb_draw_few (low := low) ht ha (by omega) (logp θ₀) hkD noise hlow
  have hlen : tokens.length = dom := by simpa using h3.length_eq
  obtain ⟨r, r1, r2, r3, r4⟩ := rb_loss_few hh cast (by omega : 2 ≤ k) name logp (by omega) (by omega) h1 h2 hne
  refine ⟨r, r1, r2, r3, ?_⟩
  intro θ
  rw [r4 θ]
  congr 1
  apply List.map_congr_left
  intro f _
  rw [(h3.map _).sum_eq, ← List.sum_ofFn]
  congr 1
  apply List.ext_getElem (by simp)
  intro i _ _
  simp

end

/-- The probabilities of a coin: `1 - θ` and `θ`. -/
noncomputable def coinLog (θ : ℝ) (t : Nat) : ℝ := if t = 0 then Real.log (1 - θ) else Real.log θ

/-- C63 fails if the samples have integer type, as those of `Categorical` have: the log-probability of the sample is written
into a tensor of that type, which has no gradient.  For a coin that is 1 with probability 1/3 and the cost that is its
value, the surrogate loss has derivative 0 in every run, but the expected cost has derivative 1. -/
theorem C63_refuted {hook : UnwrapHook (AD ℝ (1 / 3 : ℝ))} (hh : PlainHook hook)
    {cast : AD ℝ (1 / 3 : ℝ) → AD ℝ (1 / 3 : ℝ)} (hc : ∀ a, ∃ c, cast a = AD.const c) {top : Nat → List ℝ → List Nat}
    {amax : List (WithBot ℝ) → Nat} (ht : TopOf top) (ha : MaxOf amax) (name : String) (u : Fin 2 → ℝ) :
    ∃ r, RBLossRun hook cast top amax 2 name 2 coinLog [fun _ x => x] u r ∧ deriv (r.ten.get []) (1 / 3) = 0 ∧
      deriv (fun θ => ∑ t : Fin 2, Real.exp (coinLog θ t) * (t : Nat)) (1 / 3) = 1 := by
  obtain ⟨g, s, x, g1, g2, g3, g4, g5⟩ := rb_draw ht ha (le_refl 2) (coinLog (1 / 3)) (le_refl 2) u
  set j := (List.range 2).map (coinLog (1 / 3)) with hj
  have hj' : j = [Real.log (2 / 3), Real.log (1 / 3)] := by
    rw [hj]
    norm_num [List.range_succ, coinLog]
  have hover : top (2 - 1) j = [0] := by
    have h1 := ht.len 1 j (by rw [hj']; simp)
    have h2 := ht.inRange 1 j (by rw [hj']; simp)
    have h3 := ht.best 1 j (by rw [hj']; simp)
    show top 1 j = [0]
    obtain ⟨a, hta⟩ := List.length_eq_one_iff.1 h1
    rw [hta] at h2 h3 ⊢
    have ha' : a < 2 := by simpa [hj'] using h2 a (by simp)
    have : a ≠ 1 := by
      rintro rfl
      have := h3 1 (by simp) 0 (by simp) _ _ (by rw [hj']; rfl) (by rw [hj']; rfl)
      have h4 : Real.log (1 / 3) < Real.log (2 / 3) := Real.log_lt_log (by norm_num) (by norm_num)
      linarith
    have : a = 0 := by omega
    rw [this]
  rw [hover] at g3 g4
  have hx : (x : Nat) = 1 := by
    have h1 := x.2
    have h2 : (x : Nat) ≠ 0 := by simpa using g4
    omega
  obtain ⟨r, r1, r2, r3, r4⟩ := rb_loss_full hh cast (le_refl 2) name coinLog (over := [0]) rfl g2 g3 (costs := [fun _ x => x]) (by simp)
  obtain ⟨c, hcx⟩ := hc (logProbElt coinLog x)
  refine ⟨r, ⟨g, g1, r1⟩, ?_, ?_⟩
  · have e : r.ten.get [] = fun _ => 1 - Real.exp (coinLog (1 / 3) 0) := by
      funext θ
      rw [r4 θ, hcx]
      simp [hx]
    rw [e]
    exact deriv_const _ _
  · have e : (fun θ : ℝ => ∑ t : Fin 2, Real.exp (coinLog θ t) * ((t : Nat) : ℝ)) =ᶠ[nhds (1 / 3)] fun θ => θ := by
      filter_upwards [lt_mem_nhds (by norm_num : (0 : ℝ) < 1 / 3)] with θ hθ
      rw [Fin.sum_univ_two]
      simp [coinLog, Real.exp_log hθ]
    rw [e.deriv_eq]
    exact deriv_id _

/-- The hypotheses of `C63_partial` can be met: three values with probabilities 1/2, 1/4, 1/4 at the current parameters, and
two samples. -/
example (hook : UnwrapHook (AD ℝ (0 : ℝ))) (hh : PlainHook hook) {top : Nat → List ℝ → List Nat}
    {amax : List (WithBot ℝ) → Nat} (ht : TopOf top) (ha : MaxOf amax) :
    ∃ loss : (Fin 3 → ℝ) → ℝ → ℝ, ∫ u, loss u 0 ∂cube 3 = 1 / 4 + 1 / 2 := by
  obtain ⟨loss, _, h, _⟩ := C63_partial hh ht ha (le_refl 2) "x" (by norm_num : 2 ≤ 3)
    (fun θ t => θ + if t = 0 then Real.log (1 / 2) else Real.log (1 / 4))
    (by simp [Fin.sum_univ_succ, Real.exp_neg, Real.exp_log]; norm_num) (costs := [fun _ x => x]) (by simp)
  refine ⟨loss, ?_⟩
  rw [h 0]
  simp [Fin.sum_univ_succ, Real.exp_neg, Real.exp_log]
  norm_num

/-! ## C64 -/

section
variable {E : Type _}

/-- The importance weight of the `i`-th sample without replacement at the parameters `θ`, where the probability to be among
the samples, given the threshold `κ`, is that at `θ₀`; the last sample only gives the threshold (Kool et al., equation 5). -/
noncomputable def worWeight (logp : E → Nat → ℝ) (θ₀ : E) (tokens : List Nat) (κ : ℝ) (i : Nat) (θ : E) : ℝ :=
  if i + 1 = tokens.length then 0
  else Real.exp (logp θ (tokens.getD i 0)) / (1 - Real.exp (-Real.exp (logp θ₀ (tokens.getD i 0) - κ)) + 1e-8)

/-- The sum of the importance weights. -/
noncomputable def worTotal (logp : E → Nat → ℝ) (θ₀ : E) (tokens : List Nat) (κ : ℝ) : ℝ :=
  ∑ i ∈ Finset.range tokens.length, worWeight logp θ₀ tokens κ i θ₀

/-- The function whose gradient is the estimate of the gradient in Kool et al., equations 9, 10 and 11, for the costs `c i`
of the samples. -/
noncomputable def worScore (biased useBaseline : Bool) (logp : E → Nat → ℝ) (θ₀ : E) (tokens : List Nat) (κ : ℝ)
    (c : Nat → ℝ) (θ : E) : ℝ :=
  let w := worWeight logp θ₀ tokens κ
  let W := worTotal logp θ₀ tokens κ
  let B := ∑ i ∈ Finset.range tokens.length, w i θ₀ * c i
  let p := fun i => Real.exp (logp θ₀ (tokens.getD i 0))
  ∑ i ∈ Finset.range tokens.length,
    match useBaseline, biased with
    | true, true => w i θ / (W - w i θ₀ + p i) * (c i - B / W)
    | true, false => w i θ * (c i * (1 - p i + w i θ₀) - B)
    | false, true => c i * (w i θ / W)
    | false, false => c i * w i θ

/-- The weight of the `i`-th sample in the plate. -/
noncomputable def worPlateWeight (biased : Bool) (logp : E → Nat → ℝ) (θ₀ : E) (tokens : List Nat) (κ : ℝ) (i : Nat) : ℝ :=
  if biased then worWeight logp θ₀ tokens κ i θ₀ / worTotal logp θ₀ tokens κ else worWeight logp θ₀ tokens κ i θ₀

variable {θ₀ : E}

theorem ad_sum_apply (θ : E) (s : Finset Nat) (f : Nat → AD E θ₀) : (∑ i ∈ s, f i) θ = ∑ i ∈ s, f i θ := by
  refine (AD.eval_apply θ _).symm.trans ?_
  rw [map_sum]
  rfl

theorem ad_div_apply (θ : E) (x y : AD E θ₀) : (x / y) θ = x θ / y θ := rfl

theorem iw_apply (logp : E → Nat → ℝ) (tokens : List Nat) (κ : ℝ) {i : Nat} (hi : i < tokens.length) (θ : E) :
    (computeIwElts (tokens.map (logProbElt logp : Nat → AD E θ₀)) (κ : WithBot ℝ) false).getD i 0 θ =
      worWeight logp θ₀ tokens κ i θ := by
  rw [computeIwElts, worWeight]
  simp only [Bool.false_eq_true, if_false, List.map_map, List.length_map, List.getD]
  split
  · rename_i h
    rw [List.getElem?_set, if_pos (by omega), if_pos (by simp; omega)]
    rfl
  · rename_i h
    rw [List.getElem?_set, if_neg (by omega), List.getElem?_map, List.getElem?_eq_getElem hi]
    rfl

theorem iw_sum (l : List (AD E θ₀)) (θ : E) : l.sum θ = ∑ i ∈ Finset.range l.length, l.getD i 0 θ := by
  induction l with
  | nil => simp
  | cons a l ih =>
    rw [List.sum_cons, List.length_cons, Finset.sum_range_succ', AD.add_apply, ih]
    simp [add_comm]

theorem niw_apply (biased : Bool) (logp : E → Nat → ℝ) (tokens : List Nat) (κ : ℝ) {i : Nat} (hi : i < tokens.length) (θ : E) :
    (computeIwElts (tokens.map (logProbElt logp : Nat → AD E θ₀)) (κ : WithBot ℝ) biased).getD i 0 θ =
      if biased then worWeight logp θ₀ tokens κ i θ / worTotal logp θ₀ tokens κ else worWeight logp θ₀ tokens κ i θ := by
  cases biased with
  | false => rw [iw_apply _ _ _ hi]; simp
  | true =>
    set l := computeIwElts (tokens.map (logProbElt logp : Nat → AD E θ₀)) (κ : WithBot ℝ) false with hl
    have hlen : l.length = tokens.length := by rw [hl, computeIwElts_length, List.length_map]
    have h1 : computeIwElts (tokens.map (logProbElt logp : Nat → AD E θ₀)) (κ : WithBot ℝ) true =
        l.map (fun w => w / Autograd.detach l.sum) := by
      simp [hl, computeIwElts]
    have hi2 : i < l.length := by omega
    have h2 := iw_apply (θ₀ := θ₀) logp tokens κ hi θ
    rw [← hl] at h2
    rw [h1]
    simp only [List.getD, List.getElem?_map, List.getElem?_eq_getElem hi2, Option.map_some, Option.getD_some] at h2 ⊢
    rw [ad_div_apply, h2, AD.detach_apply, iw_sum, hlen]
    simp only [if_true]
    congr 1
    rw [worTotal]
    refine Finset.sum_congr rfl (fun j hj => ?_)
    rw [hl, iw_apply _ _ _ (Finset.mem_range.1 hj)]

theorem worScoreElts_apply (biased useBaseline : Bool) (logp : E → Nat → ℝ) (tokens : List Nat) (κ : ℝ) (c : Nat → AD E θ₀)
    (θ : E) :
    worScoreElts biased useBaseline tokens.length
      (fun i => (computeIwElts (tokens.map (logProbElt logp : Nat → AD E θ₀)) (κ : WithBot ℝ) false).getD i 0)
      (fun i => (computeIwElts (tokens.map (logProbElt logp : Nat → AD E θ₀)) (κ : WithBot ℝ) biased).getD i 0)
      (fun i => ((tokens.map (logProbElt logp : Nat → AD E θ₀)).map Autograd.exp).getD i 0) c θ =
    worScore biased useBaseline logp θ₀ tokens κ (fun i => c i θ₀) θ := by
  have hp : ∀ i < tokens.length, ∀ θ, (((tokens.map (logProbElt logp : Nat → AD E θ₀)).map Autograd.exp).getD i 0) θ =
      Real.exp (logp θ (tokens.getD i 0)) := by
    intro i hi θ
    simp only [List.getD, List.map_map, List.getElem?_map, List.getElem?_eq_getElem hi]
    rfl
  have hT : ∑ i ∈ Finset.range tokens.length,
      (computeIwElts (tokens.map (logProbElt logp : Nat → AD E θ₀)) (κ : WithBot ℝ) false).getD i 0 θ₀ =
      worTotal logp θ₀ tokens κ := by
    rw [worTotal]
    exact Finset.sum_congr rfl (fun j hj => iw_apply _ _ _ (Finset.mem_range.1 hj) _)
  have hB : ∑ i ∈ Finset.range tokens.length,
      (computeIwElts (tokens.map (logProbElt logp : Nat → AD E θ₀)) (κ : WithBot ℝ) false).getD i 0 θ₀ * c i θ₀ =
      ∑ i ∈ Finset.range tokens.length, worWeight logp θ₀ tokens κ i θ₀ * c i θ₀ :=
    Finset.sum_congr rfl (fun j hj => by rw [iw_apply _ _ _ (Finset.mem_range.1 hj) _])
  rw [worScoreElts, worScore]
  cases useBaseline <;> cases biased <;>
    simp only [if_true, Bool.false_eq_true, if_false, ad_sum_apply, AD.mul_apply, AD.detach_apply, ad_div_apply,
      AD.sub_apply, AD.add_apply, AD.one_apply, hT, hB]
  · refine Finset.sum_congr rfl (fun i hi => ?_)
    rw [iw_apply _ _ _ (Finset.mem_range.1 hi)]
  · refine Finset.sum_congr rfl (fun i hi => ?_)
    rw [niw_apply true _ _ _ (Finset.mem_range.1 hi)]
    simp
  · refine Finset.sum_congr rfl (fun i hi => ?_)
    rw [iw_apply _ _ _ (Finset.mem_range.1 hi), iw_apply _ _ _ (Finset.mem_range.1 hi), hp i (Finset.mem_range.1 hi)]
  · refine Finset.sum_congr rfl (fun i hi => ?_)
    rw [iw_apply _ _ _ (Finset.mem_range.1 hi), iw_apply _ _ _ (Finset.mem_range.1 hi), hp i (Finset.mem_range.1 hi)]

/-- The hypotheses of `C63_enumerated` can be met: a coin and three samples. -/
example (hook : UnwrapHook (AD ℝ (1 / 3 : ℝ))) (hh : PlainHook hook) (cast : AD ℝ (1 / 3 : ℝ) → AD ℝ (1 / 3 : ℝ))
    {top : Nat → List ℝ → List Nat} {amax : List (WithBot ℝ) → Nat} (ht : TopOf top) (ha : MaxOf amax) :
    ∃ r, rbLoss hook cast top amax ⊥ 3 "x" 2 coinLog (fun _ _ _ => 0) [fun θ x => θ * x] = .ok r ∧ r.plates = [] ∧
      ∀ θ, r.ten.get [] θ = Real.exp (coinLog θ 1) * θ := by
  obtain ⟨r, r1, r2, _, r3⟩ := C63_enumerated hh cast ht ha (low := ⊥) (k := 3) "x" le_rfl (by norm_num) coinLog (fun _ _ _ => 0)
    (fun _ _ _ => WithBot.bot_lt_coe 0) (costs := [fun θ x => θ * x]) (by simp)
  refine ⟨r, r1, r2, fun θ => ?_⟩
  rw [r3]
  simp [Fin.sum_univ_two]

/-- C64, the surrogate loss of `ScoreFunctionWOR` for one variable without plates and independent dimensions, in all four
variants: there are different samples and a threshold such that the loss is, for each cost, the weighted sum of the costs,
multiplied by the exponential of the change of `worScore`.  Missing: the factor `∑ w c` in its gradient should not be there
(`C64_gradient_partial`, `C64_refuted`). -/
theorem C64_loss_partial {hook : UnwrapHook (AD E θ₀)} (hh : PlainHook hook) (name : String) (biased useBaseline : Bool)
    {topk : Nat → List (WithBot ℝ) → List ℝ → List Nat} (hp : Picks topk) {k dom : Nat} (hk : 2 ≤ k) (hD : 2 ≤ dom)
    (logp : E → Nat → ℝ) (noise : Nat → Nat → Nat → ℝ) :
    ∃ (tokens : List Nat) (κ : ℝ), tokens.Nodup ∧ tokens.length = min k dom ∧ (∀ t ∈ tokens, t < dom) ∧
      tokens.getLast?.map (noise 0 0) = some κ ∧
      ∀ costs : List (E → ℝ → ℝ), costs ≠ [] →
        ∃ r, worLoss hook name biased useBaseline topk k dom logp (fun e r t => (noise e r t : WithBot ℝ)) costs = .ok r ∧
          r.plates = [] ∧ r.ten.shape = [] ∧
          ∀ θ, r.ten.get [] θ = (costs.map (fun f =>
            let S := worScore biased useBaseline logp θ₀ tokens κ (fun i => f θ₀ (tokens.getD i 0 : Nat))
            Real.exp (S θ - S θ₀) * ∑ i ∈ Finset.range tokens.length,
              worPlateWeight biased logp θ₀ tokens κ i * f θ (tokens.getD i 0 : Nat))).sum := by
  set v : Var ℝ := ⟨dom, [], false, fun _ _ t => logp θ₀ t⟩ with hv
  set nz : Nat → Nat → Nat → WithBot ℝ := fun e r t => (noise e r t : WithBot ℝ) with hnz
  set arg := topk (min k v.dom) ((List.range v.dom).map (nz 0 0)) ((List.range v.dom).map (v.given [] 0)) with harg
  have hrun := scalar_run hp (k := k) (v := v) rfl nz (arg := arg) rfl
  have hlen : arg.length = min k dom := hp.len _ _ _ (by simp) (by simp)
  have hnd : arg.Nodup := hp.nodup _ _ _ (by simp) (by simp)
  have hrg : ∀ i ∈ arg, i < dom := by
    intro i hi
    simpa using hp.inRange _ _ _ (by simp) (by simp) i hi
  have hne : arg ≠ [] := by intro h; rw [h] at hlen; simp at hlen; omega
  refine ⟨arg, noise 0 0 (arg.getLast hne), hnd, hlen, hrg, by rw [List.getLast?_eq_some_getLast hne]; rfl, ?_⟩
  intro costs hcosts
  obtain ⟨r, r1, r2, r3, r4⟩ := wor_after hh name biased useBaseline logp (tokens := arg) (by omega)
    (noise 0 0 (arg.getLast hne) : WithBot ℝ) hcosts
  refine ⟨r, ?_, r2, r3, ?_⟩
  · rw [worLoss]
    simp only [bind, Except.bind, if_neg (by omega : ¬ k < 2), pure, Except.pure]
    rw [hrun]
    simp only [Option.bind_some, List.getLast?_map, List.getLast?_eq_some_getLast hne, Option.map_some]
    rw [sequences_one (arg := arg) rfl, List.map_map]
    simpa [Function.comp_def, hnz] using r1
  · intro θ
    rw [r4 θ]
    congr 1
    apply List.map_congr_left
    intro f _
    have hS := worScoreElts_apply (θ₀ := θ₀) biased useBaseline logp arg (noise 0 0 (arg.getLast hne))
      (fun i => (fun θ => f θ (arg.getD i 0 : Nat) : E → ℝ))
    rw [Finset.mul_sum, ← list_range_sum]
    congr 1
    apply List.map_congr_left
    intro i hi
    simp only []
    rw [niw_apply biased _ _ _ (List.mem_range.1 hi), worPlateWeight]
    refine Eq.trans (congrArg₂ (fun a b => _ * (Real.exp (a - b) * _)) (hS θ) (hS θ₀)) ?_
    ring

theorem worScore_smul (biased useBaseline : Bool) (logp : E → Nat → ℝ) (tokens : List Nat) (κ a : ℝ) (c : Nat → ℝ) (θ : E) :
    worScore biased useBaseline logp θ₀ tokens κ (fun i => a * c i) θ =
      a * worScore biased useBaseline logp θ₀ tokens κ c θ := by
  have hB : ∑ i ∈ Finset.range tokens.length, worWeight logp θ₀ tokens κ i θ₀ * (a * c i) =
      a * ∑ i ∈ Finset.range tokens.length, worWeight logp θ₀ tokens κ i θ₀ * c i := by
    rw [Finset.mul_sum]
    exact Finset.sum_congr rfl (fun i _ => by ring)
  simp only [worScore]
  rw [hB]
  refine Eq.trans ?_ (Finset.mul_sum _ _ _).symm
  refine Finset.sum_congr rfl (fun i _ => ?_)
  cases useBaseline <;> cases biased <;> simp only [] <;> ring

end

section
variable {E : Type _} [NormedAddCommGroup E] [NormedSpace ℝ E] {θ₀ : E}

theorem worWeight_differentiable (logp : E → Nat → ℝ) (tokens : List Nat) (κ : ℝ) (i : Nat)
    (h : i < tokens.length → DifferentiableAt ℝ (fun θ => logp θ (tokens.getD i 0)) θ₀) (hi : i < tokens.length) :
    DifferentiableAt ℝ (worWeight logp θ₀ tokens κ i) θ₀ := by
  unfold worWeight
  split
  · exact differentiableAt_const _
  · simpa [div_eq_mul_inv] using (h hi).exp.mul_const _

theorem worScore_differentiable (biased useBaseline : Bool) (logp : E → Nat → ℝ) (tokens : List Nat) (κ : ℝ) (c : Nat → ℝ)
    (h : ∀ i < tokens.length, DifferentiableAt ℝ (fun θ => logp θ (tokens.getD i 0)) θ₀) :
    DifferentiableAt ℝ (worScore biased useBaseline logp θ₀ tokens κ c) θ₀ := by
  unfold worScore
  refine DifferentiableAt.fun_sum (fun i hi => ?_)
  have hw := worWeight_differentiable logp tokens κ i (h i) (Finset.mem_range.1 hi)
  cases useBaseline <;> cases biased <;> simp only []
  · exact hw.const_mul _
  · simpa [div_eq_mul_inv] using (hw.mul_const _).const_mul _
  · exact hw.mul_const _
  · simpa [div_eq_mul_inv] using (hw.mul_const _).mul_const _

/-- C64, the gradient of the surrogate loss of `ScoreFunctionWOR`: for each cost the gradient of `worScore`, multiplied by the
weighted sum of the costs, and the weighted sum of the gradients of the costs.  Its value is the weighted sum of the costs.
Missing: the gradient of `worScore` should not be multiplied (`C64_refuted`). -/
theorem C64_gradient_partial {hook : UnwrapHook (AD E θ₀)} (hh : PlainHook hook) (name : String) (biased useBaseline : Bool)
    {topk : Nat → List (WithBot ℝ) → List ℝ → List Nat} (hp : Picks topk) {k dom : Nat} (hk : 2 ≤ k) (hD : 2 ≤ dom)
    (logp : E → Nat → ℝ) (hlogp : ∀ t < dom, DifferentiableAt ℝ (fun θ => logp θ t) θ₀) (noise : Nat → Nat → Nat → ℝ) :
    ∃ (tokens : List Nat) (κ : ℝ), tokens.Nodup ∧ tokens.length = min k dom ∧ (∀ t ∈ tokens, t < dom) ∧
      tokens.getLast?.map (noise 0 0) = some κ ∧
      ∀ costs : List (E → ℝ → ℝ), costs ≠ [] → (∀ f ∈ costs, ∀ t < dom, DifferentiableAt ℝ (fun θ => f θ (t : Nat)) θ₀) →
        ∃ r, worLoss hook name biased useBaseline topk k dom logp (fun e r t => (noise e r t : WithBot ℝ)) costs = .ok r ∧
          r.plates = [] ∧ r.ten.shape = [] ∧
          (r.ten.get []).val = (costs.map (fun f => ∑ i ∈ Finset.range tokens.length,
              worPlateWeight biased logp θ₀ tokens κ i * f θ₀ (tokens.getD i 0 : Nat))).sum ∧
          HasFDerivAt (r.ten.get [] : E → ℝ) (costs.map (fun f =>
            (∑ i ∈ Finset.range tokens.length, worPlateWeight biased logp θ₀ tokens κ i * f θ₀ (tokens.getD i 0 : Nat)) •
                fderiv ℝ (worScore biased useBaseline logp θ₀ tokens κ (fun i => f θ₀ (tokens.getD i 0 : Nat))) θ₀ +
              ∑ i ∈ Finset.range tokens.length, worPlateWeight biased logp θ₀ tokens κ i •
                fderiv ℝ (fun θ => f θ (tokens.getD i 0 : Nat)) θ₀)).sum θ₀ := by
  obtain ⟨tokens, κ, h1, h2, h3, h4, h5⟩ := C64_loss_partial hh name biased useBaseline hp hk hD logp noise
  refine ⟨tokens, κ, h1, h2, h3, h4, ?_⟩
  intro costs hne hf
  obtain ⟨r, r1, r2, r3, r4⟩ := h5 costs hne
  have hin : ∀ i < tokens.length, tokens.getD i 0 < dom := by
    intro i hi
    rw [List.getD, List.getElem?_eq_getElem hi]
    exact h3 _ (List.getElem_mem hi)
  refine ⟨r, r1, r2, r3, ?_, ?_⟩
  · show r.ten.get [] θ₀ = _
    rw [r4 θ₀]
    simp
  · have e : (r.ten.get [] : E → ℝ) = fun θ => (costs.map (fun f =>
        Real.exp (worScore biased useBaseline logp θ₀ tokens κ (fun i => f θ₀ (tokens.getD i 0 : Nat)) θ -
          worScore biased useBaseline logp θ₀ tokens κ (fun i => f θ₀ (tokens.getD i 0 : Nat)) θ₀) *
          ∑ i ∈ Finset.range tokens.length, worPlateWeight biased logp θ₀ tokens κ i * f θ (tokens.getD i 0 : Nat))).sum := by
      funext θ
      exact r4 θ
    rw [e]
    clear e r4 r1 r2 r3 hne
    induction costs with
    | nil => simpa using hasFDerivAt_const (0 : ℝ) θ₀
    | cons f costs ih =>
      simp only [List.map_cons, List.sum_cons]
      refine HasFDerivAt.fun_add ?_ (ih (fun g hg => hf g (List.mem_cons_of_mem _ hg)))
      have hS := (worScore_differentiable biased useBaseline logp tokens κ (fun i => f θ₀ (tokens.getD i 0 : Nat))
        (fun i hi => hlogp _ (hin i hi))).hasFDerivAt
      have hA := (hS.sub_const (worScore biased useBaseline logp θ₀ tokens κ (fun i => f θ₀ (tokens.getD i 0 : Nat)) θ₀)).exp
      have hB : HasFDerivAt (fun θ => ∑ i ∈ Finset.range tokens.length,
          worPlateWeight biased logp θ₀ tokens κ i * f θ (tokens.getD i 0 : Nat))
          (∑ i ∈ Finset.range tokens.length, worPlateWeight biased logp θ₀ tokens κ i •
                fderiv ℝ (fun θ => f θ (tokens.getD i 0 : Nat)) θ₀) θ₀ := by
        refine HasFDerivAt.fun_sum (fun i hi => ?_)
        exact (hf f (by simp) _ (hin i (Finset.mem_range.1 hi))).hasFDerivAt.const_mul _
      have := hA.mul hB
      simp only [sub_self, Real.exp_zero, one_smul] at this
      rw [add_comm] at this
      exact this

/-- The gradient of the surrogate loss of `ScoreFunctionWOR` is quadratic in costs that do not depend on the parameters. -/
theorem C64_scaling {hook : UnwrapHook (AD E θ₀)} (hh : PlainHook hook) (name : String) (biased useBaseline : Bool)
    {topk : Nat → List (WithBot ℝ) → List ℝ → List Nat} (hp : Picks topk) {k dom : Nat} (hk : 2 ≤ k) (hD : 2 ≤ dom)
    (logp : E → Nat → ℝ) (hlogp : ∀ t < dom, DifferentiableAt ℝ (fun θ => logp θ t) θ₀) (noise : Nat → Nat → Nat → ℝ)
    (c : ℝ → ℝ) (a : ℝ) {r r' : STen (AD E θ₀)}
    (h : worLoss hook name biased useBaseline topk k dom logp (fun e r t => (noise e r t : WithBot ℝ)) [fun _ x => c x] = .ok r)
    (h' : worLoss hook name biased useBaseline topk k dom logp (fun e r t => (noise e r t : WithBot ℝ))
      [fun _ x => a * c x] = .ok r') :
    fderiv ℝ (r'.ten.get [] : E → ℝ) θ₀ = a ^ 2 • fderiv ℝ (r.ten.get [] : E → ℝ) θ₀ := by
  obtain ⟨tokens, κ, _, _, h3, _, h5⟩ := C64_gradient_partial hh name biased useBaseline hp hk hD logp hlogp noise
  have hin : ∀ i < tokens.length, tokens.getD i 0 < dom := by
    intro i hi
    rw [List.getD, List.getElem?_eq_getElem hi]
    exact h3 _ (List.getElem_mem hi)
  obtain ⟨q, q1, _, _, _, q2⟩ := h5 [fun _ x => c x] (by simp) (by simp)
  obtain ⟨q', q1', _, _, _, q2'⟩ := h5 [fun _ x => a * c x] (by simp) (by simp)
  rw [q1, Except.ok.injEq] at h
  rw [q1', Except.ok.injEq] at h'
  subst h
  subst h'
  rw [q2.fderiv, q2'.fderiv]
  simp only [List.map_cons, List.map_nil, List.sum_cons, List.sum_nil, add_zero, fderiv_fun_const, Pi.zero_apply, smul_zero,
    Finset.sum_const_zero]
  have hS : worScore biased useBaseline logp θ₀ tokens κ (fun i => a * c (tokens.getD i 0 : Nat)) =
      fun θ => a * worScore biased useBaseline logp θ₀ tokens κ (fun i => c (tokens.getD i 0 : Nat)) θ := by
    funext θ
    exact worScore_smul ..
  have hd : fderiv ℝ (worScore biased useBaseline logp θ₀ tokens κ (fun i => a * c (tokens.getD i 0 : Nat))) θ₀ =
      a • fderiv ℝ (worScore biased useBaseline logp θ₀ tokens κ (fun i => c (tokens.getD i 0 : Nat))) θ₀ := by
    rw [hS]
    exact fderiv_const_mul (worScore_differentiable biased useBaseline logp tokens κ _ (fun i hi => hlogp _ (hin i hi))) a
  have hw : ∑ i ∈ Finset.range tokens.length, worPlateWeight biased logp θ₀ tokens κ i * (a * c (tokens.getD i 0 : Nat)) =
      a * ∑ i ∈ Finset.range tokens.length, worPlateWeight biased logp θ₀ tokens κ i * c (tokens.getD i 0 : Nat) := by
    rw [Finset.mul_sum]
    exact Finset.sum_congr rfl (fun i _ => by ring)
  rw [hd, hw, smul_smul, smul_smul]
  congr 1
  ring

end

/-- C64 fails: the gradient is not unbiased, in none of the four variants, whatever the distribution of the random numbers:
for a fair coin and the costs `x` and `2 x` the expected gradients of the surrogate losses are not both the gradients of the
expected costs. -/
theorem C64_refuted {hook : UnwrapHook (AD ℝ (1 / 2 : ℝ))} (hh : PlainHook hook) (name : String) (biased useBaseline : Bool)
    {topk : Nat → List (WithBot ℝ) → List ℝ → List Nat} (hp : Picks topk) {k : Nat} (hk : 2 ≤ k)
    {Ω : Type _} [MeasurableSpace Ω] (μ : Measure Ω) (noise : Ω → Nat → Nat → Nat → ℝ)
    {r r' : Ω → STen (AD ℝ (1 / 2 : ℝ))}
    (h : ∀ ω, worLoss hook name biased useBaseline topk k 2 coinLog (fun e r t => (noise ω e r t : WithBot ℝ))
      [fun _ x => x] = .ok (r ω))
    (h' : ∀ ω, worLoss hook name biased useBaseline topk k 2 coinLog (fun e r t => (noise ω e r t : WithBot ℝ))
      [fun _ x => 2 * x] = .ok (r' ω)) :
    ¬(∫ ω, deriv ((r ω).ten.get [] : ℝ → ℝ) (1 / 2) ∂μ =
        deriv (fun θ => ∑ t : Fin 2, Real.exp (coinLog θ t) * (t : Nat)) (1 / 2) ∧
      ∫ ω, deriv ((r' ω).ten.get [] : ℝ → ℝ) (1 / 2) ∂μ =
        deriv (fun θ => ∑ t : Fin 2, Real.exp (coinLog θ t) * (2 * (t : Nat))) (1 / 2)) := by
  have hd : ∀ a : ℝ, deriv (fun θ => ∑ t : Fin 2, Real.exp (coinLog θ t) * (a * (t : Nat))) (1 / 2) = a := by
    intro a
    have e : (fun θ : ℝ => ∑ t : Fin 2, Real.exp (coinLog θ t) * (a * ((t : Nat) : ℝ))) =ᶠ[nhds (1 / 2)] fun θ => θ * a := by
      filter_upwards [lt_mem_nhds (by norm_num : (0 : ℝ) < 1 / 2)] with θ hθ
      rw [Fin.sum_univ_two]
      simp [coinLog, Real.exp_log hθ]
    rw [e.deriv_eq]
    simp
  have hl : ∀ t < 2, DifferentiableAt ℝ (fun θ => coinLog θ t) (1 / 2 : ℝ) := by
    intro t ht
    unfold coinLog
    split
    · exact DifferentiableAt.log (by fun_prop) (by norm_num)
    · exact DifferentiableAt.log (by fun_prop) (by norm_num)
  have hs : ∀ ω, deriv ((r' ω).ten.get [] : ℝ → ℝ) (1 / 2) = 4 * deriv ((r ω).ten.get [] : ℝ → ℝ) (1 / 2) := by
    intro ω
    have := C64_scaling hh name biased useBaseline hp hk (le_refl 2) coinLog hl (noise ω) (fun x => x) 2 (h ω) (h' ω)
    have e1 : ∀ g : ℝ → ℝ, ∀ x, fderiv ℝ g x 1 = deriv g x := fun g x => fderiv_apply_one_eq_deriv
    refine (e1 _ _).symm.trans ((congrArg (fun g : ℝ →L[ℝ] ℝ => g 1) this).trans ?_)
    refine (congrArg (fun y : ℝ => (2 : ℝ) ^ 2 * y) (e1 _ _)).trans ?_
    norm_num
  rintro ⟨h1, h2⟩
  have h1' := hd 1
  simp only [one_mul] at h1'
  rw [h1'] at h1
  rw [hd 2] at h2
  simp only [hs] at h2
  rw [integral_const_mul, h1] at h2
  norm_num at h2

/-- The hypotheses of `C64_refuted` can be met. -/
example (hook : UnwrapHook (AD ℝ (1 / 2 : ℝ))) (hh : PlainHook hook) (biased useBaseline : Bool) (noise : Nat → Nat → Nat → ℝ)
    (a : ℝ) : ∃ r, worLoss hook "x" biased useBaseline sortTop 2 2 coinLog (fun e r t => (noise e r t : WithBot ℝ))
      [fun _ x => a * x] = .ok r := by
  obtain ⟨_, _, _, _, _, _, h⟩ := C64_loss_partial hh "x" biased useBaseline (sortTop_picks (α := ℝ)) (le_refl 2) (le_refl 2)
    coinLog noise
  obtain ⟨r, hr, _⟩ := h [fun _ x => a * x] (by simp)
  exact ⟨r, hr⟩

/-! ## C65 -/

/-- C65: for plates with different names, a variable contributes to a cost exactly if the cost has the same plate object of
the decoder; it raises exactly if the variable has a plate of the decoder and the cost has none. -/
theorem C65_decides {name : String} {tensor cost : List (String × Nat)} (ht : (tensor.map Prod.fst).Nodup)
    (hc : (cost.map Prod.fst).Nodup) :
    (seqPathwise name tensor cost = .ok false ↔ ∃ d, (name, d) ∈ tensor ∧ (name, d) ∈ cost) ∧
    (seqPathwise name tensor cost = .ok true ↔ (∀ d, (name, d) ∉ tensor) ∨
      ∃ d c, (name, d) ∈ tensor ∧ (name, c) ∈ cost ∧ d ≠ c) ∧
    (seqPathwise name tensor cost = .error .value ↔ (∃ d, (name, d) ∈ tensor) ∧ ∀ c, (name, c) ∉ cost) := by
  have hf : ∀ {l : List (String × Nat)}, (l.map Prod.fst).Nodup → (∃ d, l.find? (fun p => p.1 == name) = some (name, d) ∧
      (name, d) ∈ l ∧ ∀ d', (name, d') ∈ l → d' = d) ∨ (l.find? (fun p => p.1 == name) = none ∧ ∀ d, (name, d) ∉ l) := by
    intro l hl
    cases h : l.find? (fun p => p.1 == name) with
    | none =>
      refine Or.inr ⟨rfl, fun d hd => ?_⟩
      have := List.find?_eq_none.1 h _ hd
      simp at this
    | some p =>
      obtain ⟨n, d⟩ := p
      have h1 : n = name := by simpa using List.find?_some h
      subst h1
      have h2 := List.mem_of_find?_eq_some h
      refine Or.inl ⟨d, rfl, h2, fun d' hd' => ?_⟩
      have := List.inj_on_of_nodup_map hl hd' h2 rfl
      exact (Prod.mk.inj this).2
  rcases hf ht with ⟨d, h1, h2, h3⟩ | ⟨h1, h2⟩ <;> rcases hf hc with ⟨c, g1, g2, g3⟩ | ⟨g1, g2⟩
  · simp only [seqPathwise, h1, g1]
    by_cases hcd : c = d
    · subst hcd
      refine ⟨by simpa using ⟨c, h2, g2⟩, ?_, by simpa using fun _ _ => ⟨c, g2⟩⟩
      simp only [beq_self_eq_true, Bool.not_true, Except.ok.injEq, Bool.false_eq_true, false_iff, not_or, not_forall, not_not,
        not_exists]
      refine ⟨⟨c, h2⟩, fun d' c' ⟨a, b, e⟩ => e ((h3 _ a).trans (g3 _ b).symm)⟩
    · have : (c == d) = false := by simpa using hcd
      rw [this]
      refine ⟨?_, ?_, by simpa using fun _ _ => ⟨c, g2⟩⟩
      · simp only [Bool.not_false, Except.ok.injEq, Bool.true_eq_false, false_iff, not_exists]
        intro d' ⟨a, b⟩
        exact hcd ((g3 _ b).symm.trans (h3 _ a))
      · simp only [Bool.not_false, true_iff]
        exact Or.inr ⟨d, c, h2, g2, fun e => hcd e.symm⟩
  · simp only [seqPathwise, h1, g1]
    refine ⟨by simpa using fun d' _ => g2 d', ?_, by simpa using ⟨⟨d, h2⟩, g2⟩⟩
    simp only [reduceCtorEq, false_iff, not_or, not_forall, not_not, not_exists]
    exact ⟨⟨d, h2⟩, fun d' c' ⟨_, b, _⟩ => g2 c' b⟩
  all_goals
    simp only [seqPathwise, h1]
    refine ⟨by simpa using fun d' h => absurd h (h2 d'), by simpa using Or.inl h2, by simpa using fun d' h => absurd h (h2 d')⟩

/-- Several variables of a decoder, each with its own plate object: exactly one contributes to a cost with the plate of one
of them. -/
theorem C65_one {name : String} {m : Nat} {tensor : Nat → List (String × Nat)} {cost : List (String × Nat)}
    (ht : ∀ i < m, ((tensor i).map Prod.fst).Nodup) (hi : ∀ i < m, (name, i) ∈ tensor i) (hc : (cost.map Prod.fst).Nodup)
    {j : Nat} (hj : j < m) (hcj : (name, j) ∈ cost) : ∃! i, i < m ∧ seqPathwise name (tensor i) cost = .ok false := by
  refine ⟨j, ⟨hj, (C65_decides (ht j hj) hc).1.2 ⟨j, hi j hj, hcj⟩⟩, ?_⟩
  rintro i ⟨him, h⟩
  obtain ⟨d, h1, h2⟩ := (C65_decides (ht i him) hc).1.1 h
  have e1 := List.inj_on_of_nodup_map (ht i him) h1 (hi i him) rfl
  have e2 := List.inj_on_of_nodup_map hc h2 hcj rfl
  rw [← (Prod.mk.inj e1).2, (Prod.mk.inj e2).2]

/-- The second of three variables, next to a plate of the data. -/
example : ∃! i, i < 3 ∧ seqPathwise "y" [("y", i), ("data", 7)] [("data", 7), ("y", 1)] = .ok false :=
  C65_one (tensor := fun i => [("y", i), ("data", 7)]) (by intro i _; simp) (by intro i _; simp) (by simp)
    (by norm_num : 1 < 3) (by simp)

end Storch
