import Verif.Lemmas.SeqLossLemmas
import Verif.Model.AD
import Mathlib.Analysis.SpecialFunctions.Log.Deriv
import Mathlib.Analysis.SpecialFunctions.ExpDeriv
import Mathlib.Analysis.Calculus.FDeriv.Mul
import Mathlib.Algebra.BigOperators.Fin

/-!
# C99: costs of later decoding steps reach the variables of earlier steps sample by sample
-/

namespace Storch

section
variable {α : Type _} [ValEq α]
variable {C : Chain α} {asLong : α → Nat} {name : String} {n : Nat → Nat}

/-- What the estimator of a variable of one decoding step is given for a cost of another one, with any decoder: the
cost, not averaged over the samples, and the variable as it was sampled. -/
theorem C99_given [CommSemiring α] [Autograd α] (h : Steps C name n) (hook : UnwrapHook α) (j k : Nat)
    (hf : NameFree name (C.plate name k).parents) (ev ev' : List Nat) (f g : Nat → List Nat → α) (t c : STen α)
    (ht : At C name n ev j f t) (hc : At C name n ev' k g c) :
    reducedCost hook c t = .ok c ∧ newParent t c = .ok t := by
  have hin : ∀ i i', (C.plate name i).isInMethod [C.plate name i'] = true := by
    intro i i'
    simp [Plate.isInMethod, h.kindEq, h.nameEq]
  constructor
  · unfold reducedCost
    rw [hc.multi h, order_single (by rw [h.nameEq]; exact hf)]
    simp only [reduceMissing, ht.multi h, hin, if_true]
  · unfold newParent
    have hidx : (C.plate name k).indexIn [C.plate name j] = .ok 0 := by
      simp [Plate.indexIn, h.kindEq, h.nameEq, indexBy]
    rw [hc.multi h, ht.multi h]
    simp only [transposeLoop, hidx, ne_eq, not_true_eq_false, if_false]
    rw [ht.1]
    simp only [appendMissing, hin, if_true]
    rw [mk_single h t.ten j ev ht.2.2.1]
    obtain ⟨tt, tp, td⟩ := t
    obtain ⟨h1, h2, _⟩ := ht
    simp only at h1 h2
    rw [h1, h2]

/-- A variable of a decoding step that is sampled with `ScoreFunction`: the step, the tensor, `log_prob` of its
distribution (method.py:557), and the log-probabilities of its samples.  Specification, not code. -/
structure StepVar (α : Type _) where
  step : Nat
  tensor : STen α
  logProb : STen α → Except Err (STen α)
  lp : Nat → α

/-- The tensor has the plate of its step, and `log_prob` gives one number per sample. -/
def StepVar.OK (C : Chain α) (name : String) (n : Nat → Nat) (k : Nat) (v : StepVar α) : Prop :=
  v.step ≤ k ∧ (∃ ev f, At C name n ev v.step f v.tensor) ∧
    ∃ s, v.logProb v.tensor = .ok s ∧ At C name n [] v.step (fun r _ => v.lp r) s

theorem parentLoop_steps [CommRing α] [Autograd α] (h : Steps C name n) (hn : ∀ i j, n i = n j)
    (hsel : ∀ i, C.sel name i = none) (k : Nat) (hf : NameFree name (C.plate name k).parents)
    (g : Nat → List Nat → α) (c : STen α) (hc : At C name n [] k g c) (inv : Nat → α) (m : Nat) (pn : String) (s0 : Operand α) :
    ∀ (vars : List (StepVar α)), (∀ v ∈ vars, v.OK C name n k) → ∀ i, i ≤ k → ∀ (L : STen α) (F : Nat → α),
      At C name n [] i (fun r _ => F r) L →
      ∃ i' L', i' ≤ k ∧ parentLoop (C.hook asLong) c
          (vars.map (fun v => scoreSampled (C.hook asLong) inv v.logProb m pn none v.tensor)) (.st L false, s0) =
            .ok (.st L' false, s0) ∧
        At C name n [] i' (fun r _ => F r + (vars.map (fun v => v.lp r)).sum) L'
  | [], _, i, hi, L, F, hL => ⟨i, L, hi, rfl, by simpa using hL⟩
  | v :: vars, hv, i, hi, L, F, hL => by
    obtain ⟨hvk, ⟨ev, f, hvt⟩, s, hs1, hs2⟩ := hv v (by simp)
    obtain ⟨hg1, hg2⟩ := C99_given h (C.hook asLong) v.step k hf ev [] f g v.tensor c hvt hc
    have hest : scoreEstimator (C.hook asLong) inv v.logProb m pn none v.tensor c =
        .ok (some (.st s false), none) := by
      unfold scoreEstimator
      simp only [hs1]
      rw [if_neg (by rw [hvt.2.1, Ten.ndim, hs2.2.2.1]; simp)]
    obtain ⟨u, hu1, hu2⟩ := binary_call (asLong := asLong) h hn hsel [] i v.step List.sum L s false false _ _ hL hs2
    obtain ⟨i', L', q1, q2, q3⟩ := parentLoop_steps h hn hsel k hf g c hc inv m pn s0 vars
      (fun v' hv' => hv v' (by simp [hv'])) (max i v.step) (by omega) u (fun r => F r + v.lp r) (by
        simpa using hu2)
    refine ⟨i', L', q1, ?_, ?_⟩
    · rw [List.map_cons, parentLoop]
      simp only [scoreSampled, Bool.false_eq_true, if_false, hg1, hg2, hest, addEstimate, opCall, hu1]
      exact q2
    · simpa [add_assoc] using q3

/-- The surrogate loss of a cost at the last step of a sequence, with a decoder that does not select and at least one
variable that is sampled with `ScoreFunction`: the weighted sum over the samples of the cost of the sample, times
the magic box of the sum of the log-probabilities of the values of this sample.  Missing from C99: decoders that
select (`C46_scalar_refuted`), baselines, further plates. -/
theorem C99_loss_partial [CommRing α] [Autograd α] (h : Steps C name n) (hn : ∀ i j, n i = n j)
    (hsel : ∀ i, C.sel name i = none) (k : Nat) (hf : NameFree name (C.plate name k).parents) (wt : α)
    (hw : (C.plate name k).weight = .torch (Ten.scalar wt))
    (g : Nat → List Nat → α) (c : STen α) (hc : At C name n [] k g c) (inv : Nat → α) (m : Nat) (pn : String)
    (vars : List (StepVar α)) (hne : vars ≠ []) (hv : ∀ v ∈ vars, v.OK C name n k) :
    ∃ s, surrogateCost (C.hook asLong) c
        (vars.map (fun v => scoreSampled (C.hook asLong) inv v.logProb m pn none v.tensor)) = .ok (.st s false) ∧
      s.plates = [] ∧ s.ten.shape = [] ∧
      s.ten.get [] = (∑ r ∈ Finset.range (n k),
        Autograd.exp ((vars.map (fun v => v.lp r)).sum - Autograd.detach (vars.map (fun v => v.lp r)).sum) * g r []) * wt := by
  have hloop : ∃ i L, i ≤ k ∧ parentLoop (C.hook asLong) c
      (vars.map (fun v => scoreSampled (C.hook asLong) inv v.logProb m pn none v.tensor))
        (.torch (.scalar 0), .torch (.scalar 0)) = .ok (.st L false, .torch (.scalar 0)) ∧
      At C name n [] i (fun r _ => (vars.map (fun v => v.lp r)).sum) L := by
    cases vars with
    | nil => exact absurd rfl hne
    | cons v vars =>
      obtain ⟨hvk, ⟨ev, f, hvt⟩, s, hs1, hs2⟩ := hv v (by simp)
      obtain ⟨hg1, hg2⟩ := C99_given h (C.hook asLong) v.step k hf ev [] f g v.tensor c hvt hc
      have hest : scoreEstimator (C.hook asLong) inv v.logProb m pn none v.tensor c =
          .ok (some (.st s false), none) := by
        unfold scoreEstimator
        simp only [hs1]
        rw [if_neg (by rw [hvt.2.1, Ten.ndim, hs2.2.2.1]; simp)]
      obtain ⟨u, hu1, hu2⟩ := scalar_call h v.step (C.hook asLong) List.sum 0 [] _ s false hs2 (hook_own h hn hsel hs2)
      obtain ⟨i', L', q1, q2, q3⟩ := parentLoop_steps (asLong := asLong) h hn hsel k hf g c hc inv m pn (.torch (.scalar 0)) vars
        (fun v' hv' => hv v' (by simp [hv'])) v.step hvk u (fun r => v.lp r) (by simpa using hu2)
      refine ⟨i', L', q1, ?_, by simpa using q3⟩
      rw [List.map_cons, parentLoop]
      simp only [scoreSampled, Bool.false_eq_true, if_false, hg1, hg2, hest, addEstimate, opCall, hu1]
      exact q2
  obtain ⟨i, L, hik, hl, hL⟩ := hloop
  obtain ⟨d, hd1, hd2⟩ := unary_call h i (C.hook asLong) detachElts [] _ L false hL (hook_own h hn hsel hL)
  obtain ⟨x, hx1, hx2⟩ := binary_call (asLong := asLong) h hn hsel [] i i subElts L d false false _ _ hL hd2
  rw [max_self] at hx2
  obtain ⟨b, hb1, hb2⟩ := unary_call h i (C.hook asLong) expElts [] _ x false hx2 (hook_own h hn hsel hx2)
  obtain ⟨a, ha1, ha2⟩ := binary_call (asLong := asLong) h hn hsel [] i k List.prod b c false false _ _ hb2 hc
  rw [max_eq_right hik] at ha2
  obtain ⟨s, hs1, hs2⟩ := reduce_at h k (C.hook asLong) _ a false ha2 (hook_own h hn hsel ha2) wt hw hf
  obtain ⟨u, hu1, hu2⟩ := flat_call (C.hook asLong) List.sum hs2 false (.scalar 0) rfl [.torch (.scalar 0), .st s false] false rfl
  refine ⟨u, ?_, hu2.1, hu2.2.2.1, ?_⟩
  · unfold surrogateCost
    simp only [hl, magicBox, opCall, hd1, hx1, hb1, ha1, hs1, hu1]
  · rw [hu2.2.2.2]
    simp [Ten.scalar, expElts, subElts, detachElts]

end

/-- The mean of a function of one of several independent draws. -/
theorem mean_of_one {X V : Type _} [Fintype X] [AddCommGroup V] [Module ℝ V] (P : X → ℝ) (hP : ∑ x, P x = 1)
    (F : X → V) : ∀ {N : Nat} (j : Fin N), ∑ ω : Fin N → X, (∏ r, P (ω r)) • F (ω j) = ∑ x, P x • F x
  | 0, j => j.elim0
  | N + 1, j => by
    classical
    rw [← (Fin.insertNthEquiv (fun _ => X) j).sum_comp, Fintype.sum_prod_type]
    apply Finset.sum_congr rfl
    intro x _
    have h1 : ∀ y : Fin N → X, (∏ r, P ((Fin.insertNthEquiv (fun _ => X) j) (x, y) r)) •
        F ((Fin.insertNthEquiv (fun _ => X) j) (x, y) j) = (∏ r, P (y r)) • P x • F x := by
      intro y
      rw [Fin.prod_univ_succAbove _ j]
      simp only [Fin.insertNthEquiv_apply, Fin.insertNth_apply_same, Fin.insertNth_apply_succAbove]
      rw [mul_comm, mul_smul]
    simp only [h1]
    rw [← Finset.sum_smul]
    have h2 : ∑ y : Fin N → X, ∏ r, P (y r) = 1 := by
      rw [← Fintype.prod_sum (fun _ x => P x)]
      rw [hP, Finset.prod_const_one]
    rw [h2, one_smul]

section
variable {E : Type _} [NormedAddCommGroup E] [NormedSpace ℝ E] {θ₀ : E}
variable {C : Chain (AD E θ₀)} {asLong : AD E θ₀ → Nat} {name : String} {n : Nat → Nat}

omit [NormedAddCommGroup E] [NormedSpace ℝ E] in
theorem ad_finset_sum {ι : Type _} (s : Finset ι) (F : ι → AD E θ₀) (θ : E) : (∑ i ∈ s, F i) θ = ∑ i ∈ s, F i θ := by
  classical
  induction s using Finset.induction_on with
  | empty => rfl
  | insert a s h ih => rw [Finset.sum_insert h, Finset.sum_insert h, AD.add_apply, ih]

/-- The sum of the logarithms of the factors.  Specification, not code. -/
noncomputable def logJoint {X : Type _} (q : List (E → X → ℝ)) (θ : E) (x : X) : ℝ := (q.map (fun p => Real.log (p θ x))).sum

/-- The score function is unbiased on sequences: the samples are sequences `ω r`, the probability of a sequence is the
product of the factors `q`, one for each variable, and the cost is a function of the sequence.  If the sequences are
drawn independently, the loss evaluates to the average cost of the sequences that were drawn, and the expectation of its
gradient is the gradient of the expected cost.  Missing from C99: what `C99_loss_partial` misses, and probabilities that are
zero. -/
theorem C99_unbiased_partial (h : Steps C name n) (hn : ∀ i j, n i = n j) (hsel : ∀ i, C.sel name i = none) (k : Nat)
    (hf : NameFree name (C.plate name k).parents)
    (hw : (C.plate name k).weight = .torch (Ten.scalar (AD.const (1 / (n k : ℝ)))))
    {X : Type _} [Fintype X] (q : List (E → X → ℝ)) (hq : q ≠ [])
    (hpos : ∀ p ∈ q, ∀ x, 0 < p θ₀ x) (hdiff : ∀ p ∈ q, ∀ x, DifferentiableAt ℝ (fun θ => p θ x) θ₀)
    (hone : ∑ x, (q.map (fun p => p θ₀ x)).prod = 1)
    (f : E → X → ℝ) (hfd : ∀ x, DifferentiableAt ℝ (fun θ => f θ x) θ₀)
    (c : (Fin (n k) → X) → STen (AD E θ₀)) (g : (Fin (n k) → X) → Nat → List Nat → AD E θ₀)
    (hc : ∀ ω, At C name n [] k (g ω) (c ω)) (hg : ∀ ω (r : Fin (n k)), g ω r [] = fun θ => f θ (ω r))
    (vars : (Fin (n k) → X) → List (StepVar (AD E θ₀))) (hv : ∀ ω, ∀ v ∈ vars ω, v.OK C name n k)
    (hvq : ∀ ω, List.Forall₂ (fun v p => ∀ r : Fin (n k), v.lp r = fun θ => Real.log (p θ (ω r))) (vars ω) q)
    (inv : Nat → AD E θ₀) (m : Nat) (pn : String) :
    ∃ L : (Fin (n k) → X) → STen (AD E θ₀),
      (∀ ω, surrogateCost (C.hook asLong) (c ω)
        ((vars ω).map (fun v => scoreSampled (C.hook asLong) inv v.logProb m pn none v.tensor)) = .ok (.st (L ω) false)) ∧
      (∀ ω, (L ω).ten.shape = [] ∧ ((L ω).ten.get []).val = (∑ r, f θ₀ (ω r)) / (n k : ℝ)) ∧
      HasFDerivAt (fun θ => ∑ x, (q.map (fun p => p θ x)).prod * f θ x)
        (∑ ω : Fin (n k) → X, (∏ r, (q.map (fun p => p θ₀ (ω r))).prod) • fderiv ℝ ((L ω).ten.get [] : E → ℝ) θ₀) θ₀ := by
  have hN : (n k : ℝ) ≠ 0 := by
    have := h.multi k
    positivity
  have hrun : ∀ ω, ∃ s : STen (AD E θ₀), surrogateCost (C.hook asLong) (c ω)
      ((vars ω).map (fun v => scoreSampled (C.hook asLong) inv v.logProb m pn none v.tensor)) = .ok (.st s false) ∧
      s.ten.shape = [] ∧ ∀ θ, s.ten.get [] θ =
        ∑ r : Fin (n k), (1 / (n k : ℝ)) * (Real.exp (logJoint q θ (ω r) - logJoint q θ₀ (ω r)) * f θ (ω r)) := by
    intro ω
    obtain ⟨s, h1, _, h3, h4⟩ := C99_loss_partial (asLong := asLong) h hn hsel k hf _ hw (g ω) (c ω) (hc ω) inv m pn (vars ω)
      (by
        intro h0
        have := (hvq ω).length_eq
        rw [h0] at this
        exact hq (List.length_eq_zero_iff.1 this.symm)) (hv ω)
    refine ⟨s, h1, h3, ?_⟩
    intro θ
    have hlp : ∀ (r : Fin (n k)) (θ : E), ((vars ω).map (fun v => v.lp r)).sum θ = logJoint q θ (ω r) := by
      intro r θ
      rw [logJoint]
      have : ∀ (vs : List (StepVar (AD E θ₀))) (q : List (E → X → ℝ)),
          List.Forall₂ (fun v p => ∀ r : Fin (n k), v.lp r = fun θ => Real.log (p θ (ω r))) vs q →
          (vs.map (fun v => v.lp r)).sum θ = (q.map (fun p => Real.log (p θ (ω r)))).sum := by
        intro vs q hh
        induction hh with
        | nil => rfl
        | cons h1 _ ih =>
          rw [List.map_cons, List.sum_cons, List.map_cons, List.sum_cons, AD.add_apply, ih, h1 r]
      exact this _ _ (hvq ω)
    rw [h4, AD.mul_apply, ad_finset_sum, Finset.sum_range, Finset.sum_mul]
    apply Finset.sum_congr rfl
    intro r _
    rw [AD.mul_apply, AD.exp_apply, AD.sub_apply, AD.detach_apply, hlp, hlp, hg, AD.const_apply, mul_comm]
  choose L hL1 hL2 hL3 using hrun
  have hS : ∀ x, DifferentiableAt ℝ (fun θ => logJoint q θ x) θ₀ := by
    intro x
    have : ∀ q : List (E → X → ℝ), (∀ p ∈ q, 0 < p θ₀ x) → (∀ p ∈ q, DifferentiableAt ℝ (fun θ => p θ x) θ₀) →
        DifferentiableAt ℝ (fun θ => logJoint q θ x) θ₀ := by
      intro q h1 h2
      induction q with
      | nil => exact differentiableAt_const _
      | cons p q ih =>
        exact ((h2 p (by simp)).log (h1 p (by simp)).ne').add
          (ih (fun p' hp => h1 p' (by simp [hp])) (fun p' hp => h2 p' (by simp [hp])))
    exact this q (fun p hp => hpos p hp x) (fun p hp => hdiff p hp x)
  have hexp : ∀ x, (fun θ => (q.map (fun p => p θ x)).prod) =ᶠ[nhds θ₀] fun θ => Real.exp (logJoint q θ x) := by
    intro x
    have : ∀ q : List (E → X → ℝ), (∀ p ∈ q, 0 < p θ₀ x) → (∀ p ∈ q, DifferentiableAt ℝ (fun θ => p θ x) θ₀) →
        (fun θ => (q.map (fun p => p θ x)).prod) =ᶠ[nhds θ₀] fun θ => Real.exp (logJoint q θ x) := by
      intro q h1 h2
      induction q with
      | nil => exact Filter.Eventually.of_forall (fun θ => by simp [logJoint])
      | cons p q ih =>
        have hp : ∀ᶠ θ in nhds θ₀, 0 < p θ x := (h2 p (by simp)).continuousAt.eventually (lt_mem_nhds (h1 p (by simp)))
        filter_upwards [hp, ih (fun p' hp => h1 p' (by simp [hp])) (fun p' hp => h2 p' (by simp [hp]))] with θ a b
        simp only [logJoint, List.map_cons, List.prod_cons, List.sum_cons] at b ⊢
        rw [Real.exp_add, Real.exp_log a, b]
    exact this q (fun p hp => hpos p hp x) (fun p hp => hdiff p hp x)
  set P : X → ℝ := fun x => (q.map (fun p => p θ₀ x)).prod with hP
  set H : X → E →L[ℝ] ℝ := fun x => fderiv ℝ (fun θ => f θ x) θ₀ + f θ₀ x • fderiv ℝ (fun θ => logJoint q θ x) θ₀ with hH
  have hbox : ∀ x, HasFDerivAt (fun θ => Real.exp (logJoint q θ x - logJoint q θ₀ x) * f θ x) (H x) θ₀ := by
    intro x
    have h1 := (((hS x).hasFDerivAt.sub_const (logJoint q θ₀ x)).exp).mul (hfd x).hasFDerivAt
    refine h1.congr_fderiv ?_
    simp [sub_self, Real.exp_zero, hH]
  have hLd : ∀ ω, fderiv ℝ ((L ω).ten.get [] : E → ℝ) θ₀ = ∑ r, (1 / (n k : ℝ)) • H (ω r) := by
    intro ω
    have : ((L ω).ten.get [] : E → ℝ) = fun θ =>
        ∑ r : Fin (n k), (1 / (n k : ℝ)) * (Real.exp (logJoint q θ (ω r) - logJoint q θ₀ (ω r)) * f θ (ω r)) :=
      funext (hL3 ω)
    rw [this]
    exact (HasFDerivAt.fun_sum (fun r _ => (hbox (ω r)).const_mul _)).fderiv
  refine ⟨L, hL1, fun ω => ⟨hL2 ω, ?_⟩, ?_⟩
  · rw [AD.val, hL3, Finset.sum_div]
    apply Finset.sum_congr rfl
    intro r _
    rw [sub_self, Real.exp_zero]
    ring
  · have hmean : ∑ ω : Fin (n k) → X, (∏ r, P (ω r)) • fderiv ℝ ((L ω).ten.get [] : E → ℝ) θ₀ = ∑ x, P x • H x := by
      simp only [hLd]
      have h1 : ∀ ω : Fin (n k) → X, (∏ r, P (ω r)) • ∑ j, (1 / (n k : ℝ)) • H (ω j) =
          ∑ j, (1 / (n k : ℝ)) • ((∏ r, P (ω r)) • H (ω j)) := by
        intro ω
        rw [Finset.smul_sum]
        exact Finset.sum_congr rfl (fun j _ => smul_comm _ _ _)
      simp only [h1]
      rw [Finset.sum_comm]
      have h2 : ∀ j : Fin (n k), ∑ ω : Fin (n k) → X, (1 / (n k : ℝ)) • ((∏ r, P (ω r)) • H (ω j)) =
          (1 / (n k : ℝ)) • ∑ x, P x • H x := by
        intro j
        rw [← Finset.smul_sum, mean_of_one P hone H j]
      simp only [h2]
      rw [Finset.sum_const, Finset.card_univ, Fintype.card_fin, ← Nat.cast_smul_eq_nsmul ℝ, smul_smul,
        mul_one_div_cancel hN, one_smul]
    rw [hmean]
    have hsum : ∀ x, HasFDerivAt (fun θ => (q.map (fun p => p θ x)).prod * f θ x) (P x • H x) θ₀ := by
      intro x
      have h1 := ((hS x).hasFDerivAt.exp).mul (hfd x).hasFDerivAt
      have h2 : Real.exp (logJoint q θ₀ x) = P x := ((hexp x).self_of_nhds).symm
      refine (h1.congr_of_eventuallyEq ?_).congr_fderiv ?_
      · filter_upwards [hexp x] with θ hθ
        simp only [Pi.mul_apply]
        rw [hθ]
      · rw [h2, hH]
        simp only [smul_add, smul_smul]
        rw [mul_comm (f θ₀ x)]
    exact HasFDerivAt.fun_sum (fun x _ => hsum x)

end

namespace SeqLossCase

/-- The element type: one parameter, which is zero. -/
abbrev V : Type := AD ℝ (0 : ℝ)

/-- Two sequences at every step, each with weight one half; nothing is selected. -/
noncomputable def pairs : Chain V :=
  ⟨fun name i => .mk name 2 (.torch (Ten.scalar (AD.const (1 / ((2 : ℕ) : ℝ))))) (.anc i) [], fun _ _ => none⟩

theorem pairs_steps : Steps pairs "z" (fun _ => 2) :=
  ⟨fun _ => rfl, fun _ => rfl, fun _ => rfl, fun _ => by decide⟩

/-- The tensor of step `j` with the given numbers. -/
noncomputable def row (j : Nat) (F : Nat → V) : STen V := ⟨⟨[2], fun idx => F (idx.headD 0)⟩, [pairs.plate "z" j], 1⟩

theorem row_at (j : Nat) (F : Nat → V) : At pairs "z" (fun _ => 2) [] j (fun r _ => F r) (row j F) :=
  ⟨rfl, rfl, rfl, fun _ _ _ _ => rfl⟩

/-- The probability of a bit. -/
noncomputable def bit (θ : ℝ) (b : Bool) : ℝ := if b then 1 / 2 + θ else 1 / 2 - θ

/-- The factors of the probability of two bits: the second bit prefers to be the first one. -/
noncomputable def factors : List (ℝ → Bool × Bool → ℝ) := [fun θ x => bit θ x.1, fun θ x => bit θ (x.1 == x.2)]

/-- The cost of two bits. -/
noncomputable def price (θ : ℝ) (x : Bool × Bool) : ℝ := (if x.1 && x.2 then 3 else 1) + θ

/-- The number of `ω` for a sample. -/
def draw (ω : Fin 2 → Bool × Bool) (r : Nat) : Bool × Bool := ω (Fin.ofNat 2 r)

theorem draw_eq (ω : Fin 2 → Bool × Bool) (r : Fin 2) : draw ω r = ω r := by
  unfold draw
  congr 1
  exact Fin.ofNat_val_eq_self r

/-- The two variables, at steps 0 and 1, with the log-probabilities of their values. -/
noncomputable def bits (ω : Fin 2 → Bool × Bool) : List (StepVar V) :=
  [⟨0, row 0 (fun r _ => if (draw ω r).1 then 1 else 0),
      fun _ => .ok (row 0 (fun r θ => Real.log (bit θ (draw ω r).1))), fun r θ => Real.log (bit θ (draw ω r).1)⟩,
    ⟨1, row 1 (fun r _ => if (draw ω r).2 then 1 else 0),
      fun _ => .ok (row 1 (fun r θ => Real.log (bit θ ((draw ω r).1 == (draw ω r).2)))),
      fun r θ => Real.log (bit θ ((draw ω r).1 == (draw ω r).2))⟩]

theorem bits_ok (ω : Fin 2 → Bool × Bool) : ∀ v ∈ bits ω, v.OK pairs "z" (fun _ => 2) 1 := by
  intro v hv
  simp only [bits, List.mem_cons, List.not_mem_nil, or_false] at hv
  rcases hv with rfl | rfl
  · exact ⟨Nat.zero_le 1, ⟨[], _, row_at 0 _⟩, _, rfl, row_at 0 _⟩
  · exact ⟨le_refl 1, ⟨[], _, row_at 1 _⟩, _, rfl, row_at 1 _⟩

/-- A case for `C99_given`: the cost of step 1 and the variable of step 0, given to an estimator as they are. -/
example (ω : Fin 2 → Bool × Bool) (hook : UnwrapHook V) :
    reducedCost hook (row 1 (fun r θ => price θ (draw ω r))) (row 0 (fun r _ => if (draw ω r).1 then 1 else 0)) =
      .ok (row 1 (fun r θ => price θ (draw ω r))) :=
  (C99_given pairs_steps hook 0 1 (fun _ hp => absurd hp (by simp [pairs, Plate.parents])) [] [] _ _ _ _ (row_at 0 _) (row_at 1 _)).1

/-- A case for `C99_loss_partial`: two bits and their cost. -/
example (ω : Fin 2 → Bool × Bool) (asLong : V → Nat) :
    ∃ s, surrogateCost (pairs.hook asLong) (row 1 (fun r θ => price θ (draw ω r)))
        ((bits ω).map (fun v => scoreSampled (pairs.hook asLong) (fun _ => 0) v.logProb 2 "z" none v.tensor)) =
          .ok (.st s false) ∧ s.ten.shape = [] := by
  obtain ⟨s, h1, _, h3, _⟩ := C99_loss_partial (asLong := asLong) pairs_steps (fun _ _ => rfl) (fun _ => rfl) 1
    (fun _ hp => absurd hp (by simp [pairs, Plate.parents])) _ rfl _ _ (row_at 1 (fun r θ => price θ (draw ω r)))
    (fun _ => 0) 2 "z" (bits ω) (by simp [bits]) (bits_ok ω)
  exact ⟨s, h1, h3⟩

/-- A case for `C99_unbiased_partial`: the gradient of the expected cost of two bits. -/
example (asLong : V → Nat) :
    ∃ L : (Fin 2 → Bool × Bool) → STen V,
      (∀ ω, surrogateCost (pairs.hook asLong) (row 1 (fun r θ => price θ (draw ω r)))
        ((bits ω).map (fun v => scoreSampled (pairs.hook asLong) (fun _ => 0) v.logProb 2 "z" none v.tensor)) =
          .ok (.st (L ω) false)) ∧
      HasFDerivAt (fun θ => ∑ x, (factors.map (fun p => p θ x)).prod * price θ x)
        (∑ ω : Fin 2 → Bool × Bool, (∏ r, (factors.map (fun p => p 0 (ω r))).prod) •
          fderiv ℝ ((L ω).ten.get [] : ℝ → ℝ) 0) 0 := by
  have hbit : ∀ b, DifferentiableAt ℝ (fun θ => bit θ b) 0 := by
    intro b
    cases b
    · exact (differentiableAt_id (𝕜 := ℝ) (x := (0 : ℝ))).const_sub (1 / 2)
    · exact (differentiableAt_id (𝕜 := ℝ) (x := (0 : ℝ))).const_add (1 / 2)
  have hbit0 : ∀ b, bit 0 b = 1 / 2 := by
    intro b
    cases b <;> simp [bit]
  obtain ⟨L, h1, _, h3⟩ := C99_unbiased_partial (asLong := asLong) pairs_steps (fun _ _ => rfl) (fun _ => rfl) 1
    (fun _ hp => absurd hp (by simp [pairs, Plate.parents])) rfl factors (by simp [factors])
    (by
      intro p hp x
      simp only [factors, List.mem_cons, List.not_mem_nil, or_false] at hp
      rcases hp with rfl | rfl <;> simp [hbit0])
    (by
      intro p hp x
      simp only [factors, List.mem_cons, List.not_mem_nil, or_false] at hp
      rcases hp with rfl | rfl
      · exact hbit _
      · exact hbit _)
    (by
      rw [Fintype.sum_prod_type]
      simp [factors, hbit0])
    price (fun x => (differentiableAt_id (𝕜 := ℝ) (x := (0 : ℝ))).const_add _)
    (fun ω => row 1 (fun r θ => price θ (draw ω r))) (fun ω r _ θ => price θ (draw ω r)) (fun ω => row_at 1 _)
    (fun ω r => by simp only [draw_eq]; rfl) bits bits_ok
    (fun ω => by
      refine .cons (fun r => ?_) (.cons (fun r => ?_) .nil)
      · simp only [draw_eq]
      · simp only [draw_eq])
    (fun _ => 0) 2 "z"
  exact ⟨L, h1, h3⟩

end SeqLossCase

end Storch
