import Verif.Lemmas.SeqMovingLemmas
import Verif.Props.SeqBatchProps

/-!
# C99: the moving average baseline on decoded sequences
-/

namespace Storch

section
variable {α : Type _}

/-- The control variates with a moving average: `a` is the average before the first variable, and each variable mixes the
average cost `c` into it once more.  Specification, not code. -/
def steady [CommRing α] [Autograd α] (N : Nat) (d c wt : α) : α → (Nat → α) → List (Nat → α) → α
  | _, _, [] => 0
  | a, F, lp :: lps =>
    (∑ r ∈ Finset.range N, boxOf (F r + lp r) * ((1 - boxOf (lp r)) * (d * a + (1 - d) * c))) * wt +
      steady N d c wt (d * a + (1 - d) * c) (fun r => F r + lp r) lps

/-- The variables of a sequence in the order in which their estimators are called.  All have the name of the plate
(seq.py:239-247) and share one baseline object (method.py:567-572), which each call updates (baseline.py:30-33): `a` is
its buffer before the first call, `c` the average cost. -/
def movingVars [ValEq α] [CommRing α] [Autograd α] (hook : UnwrapHook α) (inv : Nat → α) (m : Nat) (pn : String) (d c : α) :
    α → List (StepVar α) → List (Sampled α)
  | _, [] => []
  | a, v :: vs =>
    scoreSampled hook inv v.logProb m pn (some (.movingAverage d a)) v.tensor ::
      movingVars hook inv m pn d c (d * a + (1 - d) * c) vs

variable [ValEq α]
variable {C : Chain α} {asLong : α → Nat} {name : String} {n : Nat → Nat}

/-- The average cost that the baseline sees.  Specification, not code. -/
def averageSeen [CommRing α] [Autograd α] (N : Nat) (wt : α) (g : Nat → List Nat → α) : α :=
  Autograd.detach ((∑ r ∈ Finset.range N, g r []) * Autograd.detach wt)

/-- The estimator of a variable of one step, with the moving average. -/
theorem moving_estimate [CommRing α] [Autograd α] (h : Steps C name n) (hn : ∀ i j, n i = n j)
    (hsel : ∀ i, C.sel name i = none) (k : Nat) (hf : NameFree name (C.plate name k).parents) (wt : α)
    (hw : (C.plate name k).weight = .torch (Ten.scalar wt))
    (g : Nat → List Nat → α) (c : STen α) (hc : At C name n [] k g c)
    (inv : Nat → α) (m : Nat) (pn : String) (d a : α) (v : StepVar α) (hv : v.OK C name n k) :
    ∃ s cv, scoreEstimator (C.hook asLong) inv v.logProb m pn (some (.movingAverage d a)) v.tensor c =
        .ok (some (.st s false), some (.st cv false)) ∧ At C name n [] v.step (fun r _ => v.lp r) s ∧
      At C name n [] v.step
        (fun r _ => (1 - boxOf (v.lp r)) * (d * a + (1 - d) * averageSeen (n k) wt g)) cv := by
  obtain ⟨hvk, ⟨ev, f, hvt⟩, s, hs1, hs2⟩ := hv
  obtain ⟨t, ht1, ht2⟩ := reduce_with h k (C.hook asLong) Autograd.detach _ c false hc (hook_own h hn hsel hc) wt hw hf
  obtain ⟨e, he1, he2⟩ := flat_unary (C.hook asLong) detachElts ht2 false
  obtain ⟨o, ho1, ho2⟩ := flat_unary (C.hook asLong) (movingElts d a) he2 false
  obtain ⟨b, hb1, hb2⟩ := box_at (asLong := asLong) h hn hsel v.step _ s false hs2
  obtain ⟨cv, hcv1, hcv2⟩ := at_number_call h v.step (C.hook asLong) oneMinusElts o.ten ho2.2.2.1 _ b false hb2
    (hook_own h hn hsel hb2)
  refine ⟨s, cv, ?_, hs2, ?_⟩
  · unfold scoreEstimator
    simp only [hs1]
    rw [if_neg (by rw [hvt.2.1, Ten.ndim, hs2.2.2.1]; simp)]
    simp only [computeBaseline, ht1, opCall, he1, ho1, hb1, hcv1]
  · refine ⟨hcv2.1, hcv2.2.1, hcv2.2.2.1, ?_⟩
    intro r e hr he
    cases he
    rw [hcv2.2.2.2 r [] hr List.Forall₂.nil, ho2.2.2.2]
    rfl

/-- What happens to the two sums for one variable; the control variate has the plate of the variable. -/
theorem moving_add [CommRing α] [Autograd α] (h : Steps C name n) (hn : ∀ i j, n i = n j)
    (hsel : ∀ i, C.sel name i = none) (hf : ∀ i, NameFree name (C.plate name i).parents) (wt : α)
    (hw : ∀ i, (C.plate name i).weight = .torch (Ten.scalar wt)) (lo : Operand α) (gf : Operand α) (l cv : STen α) (i j : Nat)
    (F K : Nat → α) (hl : opCall (C.hook asLong) List.sum [lo, gf] = .ok (.st l false))
    (hl' : At C name n [] i (fun r _ => F r) l)
    (hcv : At C name n [] j (fun r _ => K r) cv) (x : α) (so : Operand α) (hso : PlainOp x so) (k : Nat) :
    ∃ s', addEstimate (C.hook asLong) (some gf, some (.st cv false)) (lo, so) = .ok (.st l false, .st s' false) ∧
      Flat (x + (∑ r ∈ Finset.range (n k), boxOf (F r) * K r) * wt) s' := by
  obtain ⟨b, hb1, hb2⟩ := box_at (asLong := asLong) h hn hsel i _ l false hl'
  obtain ⟨a, ha1, ha2⟩ := binary_call (asLong := asLong) h hn hsel [] i j List.prod b cv false false _ _ hb2 hcv
  obtain ⟨t, ht1, ht2⟩ := reduce_at h (max i j) (C.hook asLong) _ a false ha2 (hook_own h hn hsel ha2) wt (hw _) (hf _)
  obtain ⟨s', hs1, hs2⟩ := plainOp_call (C.hook asLong) List.sum hso ht2 false
  have hsq : squeezeScalar (C.hook asLong) t = .ok t := by
    unfold squeezeScalar
    rw [if_neg (by simp [Ten.ndim, ht2.2.2.1])]
  refine ⟨s', ?_, ?_⟩
  · unfold addEstimate
    simp only [hl, hb1]
    simp only [opCall, ha1, ht1, hsq, hs1]
  · rw [hn k (max i j)]
    simpa [boxOf] using hs2

theorem moving_loop [CommRing α] [Autograd α] (h : Steps C name n) (hn : ∀ i j, n i = n j)
    (hsel : ∀ i, C.sel name i = none) (k : Nat) (hf : ∀ i, NameFree name (C.plate name i).parents) (wt : α)
    (hw : ∀ i, (C.plate name i).weight = .torch (Ten.scalar wt))
    (g : Nat → List Nat → α) (c : STen α) (hc : At C name n [] k g c) (inv : Nat → α) (m : Nat) (pn : String) (d : α) :
    ∀ (vars : List (StepVar α)), (∀ v ∈ vars, v.OK C name n k) → ∀ i, i ≤ k → ∀ (L : STen α) (F : Nat → α),
      At C name n [] i (fun r _ => F r) L → ∀ (x : α) (s : STen α), Flat x s → ∀ a : α,
      ∃ i' L' s', i' ≤ k ∧ parentLoop (C.hook asLong) c
          (movingVars (C.hook asLong) inv m pn d (averageSeen (n k) wt g) a vars)
            (.st L false, .st s false) = .ok (.st L' false, .st s' false) ∧
        At C name n [] i' (fun r _ => F r + (vars.map (fun v => v.lp r)).sum) L' ∧
        Flat (x + steady (n k) d (averageSeen (n k) wt g) wt a F (vars.map StepVar.lp)) s'
  | [], _, i, hi, L, F, hL, x, s, hs, a => ⟨i, L, s, hi, rfl, by simpa using hL, by simpa [steady] using hs⟩
  | v :: vars, hv, i, hi, L, F, hL, x, s, hs, a => by
    obtain ⟨hvk, ⟨ev, f, hvt⟩, _⟩ := hv v (by simp)
    obtain ⟨hg1, hg2⟩ := C99_given h (C.hook asLong) v.step k (hf k) ev [] f g v.tensor c hvt hc
    obtain ⟨e, cv, he, he1, he2⟩ := moving_estimate (asLong := asLong) h hn hsel k (hf k) wt (hw k) g c hc inv m pn d a v
      (hv v (by simp))
    obtain ⟨u, hu1, hu2⟩ := binary_call (asLong := asLong) h hn hsel [] i v.step List.sum L e false false _ _ hL he1
    obtain ⟨s1, ha1, ha2⟩ := moving_add (asLong := asLong) h hn hsel hf wt hw (.st L false) (.st e false) u cv
      (max i v.step) v.step (fun r => F r + v.lp r) _ (by simp only [opCall, hu1]) (by simpa using hu2) he2 x
      (.st s false) (Or.inr ⟨s, rfl, hs⟩) k
    obtain ⟨i', L', s', q1, q2, q3, q4⟩ := moving_loop h hn hsel k hf wt hw g c hc inv m pn d vars
      (fun v' hv' => hv v' (by simp [hv'])) (max i v.step) (by omega) u (fun r => F r + v.lp r) (by simpa using hu2)
      _ s1 ha2 (d * a + (1 - d) * averageSeen (n k) wt g)
    refine ⟨i', L', s', q1, ?_, ?_, ?_⟩
    · rw [movingVars, parentLoop]
      simp only [scoreSampled, Bool.false_eq_true, if_false, hg1, hg2, he, ha1]
      exact q2
    · simpa [add_assoc] using q3
    · simpa [steady, add_assoc] using q4

/-- The surrogate loss of a cost at the last step of a sequence with the moving average baseline: the loss without a
baseline, and for every variable its control variates, with a baseline into which the average cost is mixed once for every variable.
Missing from C99: decoders that select, further plates. -/
theorem C99_moving_loss_partial [CommRing α] [Autograd α] (h : Steps C name n) (hn : ∀ i j, n i = n j)
    (hsel : ∀ i, C.sel name i = none) (k : Nat) (hf : ∀ i, NameFree name (C.plate name i).parents) (wt : α)
    (hw : ∀ i, (C.plate name i).weight = .torch (Ten.scalar wt))
    (g : Nat → List Nat → α) (c : STen α) (hc : At C name n [] k g c) (inv : Nat → α) (m : Nat) (pn : String) (d a : α)
    (vars : List (StepVar α)) (hne : vars ≠ []) (hv : ∀ v ∈ vars, v.OK C name n k) :
    ∃ s, surrogateCost (C.hook asLong) c (movingVars (C.hook asLong) inv m pn d (averageSeen (n k) wt g) a vars) =
          .ok (.st s false) ∧
      s.plates = [] ∧ s.ten.shape = [] ∧
      s.ten.get [] = steady (n k) d (averageSeen (n k) wt g) wt a (fun _ => 0) (vars.map StepVar.lp) +
        (∑ r ∈ Finset.range (n k), boxOf (vars.map (fun v => v.lp r)).sum * g r []) * wt := by
  have hloop : ∃ i L s, i ≤ k ∧ parentLoop (C.hook asLong) c
      (movingVars (C.hook asLong) inv m pn d (averageSeen (n k) wt g) a vars)
        (.torch (.scalar 0), .torch (.scalar 0)) = .ok (.st L false, .st s false) ∧
      At C name n [] i (fun r _ => (vars.map (fun v => v.lp r)).sum) L ∧
      Flat (steady (n k) d (averageSeen (n k) wt g) wt a (fun _ => 0) (vars.map StepVar.lp)) s := by
    cases vars with
    | nil => exact absurd rfl hne
    | cons v vars =>
      obtain ⟨hvk, ⟨ev, f, hvt⟩, _⟩ := hv v (by simp)
      obtain ⟨hg1, hg2⟩ := C99_given h (C.hook asLong) v.step k (hf k) ev [] f g v.tensor c hvt hc
      obtain ⟨e, cv, he, he1, he2⟩ := moving_estimate (asLong := asLong) h hn hsel k (hf k) wt (hw k) g c hc inv m pn d a v
        (hv v (by simp))
      obtain ⟨u, hu1, hu2⟩ := scalar_call h v.step (C.hook asLong) List.sum 0 [] _ e false he1 (hook_own h hn hsel he1)
      obtain ⟨s1, ha1, ha2⟩ := moving_add (asLong := asLong) h hn hsel hf wt hw (.torch (.scalar 0)) (.st e false) u cv
        v.step v.step (fun r => v.lp r) _ (by simp only [opCall, hu1]) (by simpa using hu2) he2 0
        (.torch (.scalar 0)) (Or.inl rfl) k
      obtain ⟨i', L', s', q1, q2, q3, q4⟩ := moving_loop (asLong := asLong) h hn hsel k hf wt hw g c hc inv m pn d vars
        (fun v' hv' => hv v' (by simp [hv'])) v.step hvk u (fun r => v.lp r) (by simpa using hu2) _ s1 ha2
        (d * a + (1 - d) * averageSeen (n k) wt g)
      refine ⟨i', L', s', q1, ?_, by simpa using q3, by simpa [steady] using q4⟩
      rw [movingVars, parentLoop]
      simp only [scoreSampled, Bool.false_eq_true, if_false, hg1, hg2, he, ha1]
      exact q2
  obtain ⟨i, L, x, hik, hl, hL, hx⟩ := hloop
  obtain ⟨b, hb1, hb2⟩ := box_at (asLong := asLong) h hn hsel i _ L false hL
  obtain ⟨z, hz1, hz2⟩ := binary_call (asLong := asLong) h hn hsel [] i k List.prod b c false false _ _ hb2 hc
  rw [max_eq_right hik] at hz2
  obtain ⟨s, hs1, hs2⟩ := reduce_at h k (C.hook asLong) _ z false hz2 (hook_own h hn hsel hz2) wt (hw k) (hf k)
  obtain ⟨u, hu1, hu2⟩ := flat_flat_call (C.hook asLong) List.sum hx hs2 false false
  refine ⟨u, ?_, hu2.1, hu2.2.2.1, ?_⟩
  · unfold surrogateCost
    simp only [hl, hb1]
    simp only [opCall, hz1, hs1, hu1]
  · rw [hu2.2.2.2]
    simp [boxOf]

end

/-- Independent draws: a function of one draw with mean zero, times the sum of a function of all draws. -/
theorem mean_all {X V : Type _} [Fintype X] [AddCommGroup V] [Module ℝ V] (P f : X → ℝ) (G : X → V) (hP : ∑ x, P x = 1)
    (hG : ∑ x, P x • G x = 0) {N : Nat} (j : Fin N) :
    ∑ ω : Fin N → X, (∏ r, P (ω r)) • ((∑ s, f (ω s)) • G (ω j)) = ∑ x, P x • (f x • G x) := by
  rw [← mean_of_one P hP (fun x => f x • G x) j, ← sub_eq_zero, ← Finset.sum_sub_distrib]
  rw [← mean_others P f G hG j]
  apply Finset.sum_congr rfl
  intro ω _
  rw [sub_smul, smul_sub]

section
variable {E : Type _} [NormedAddCommGroup E] [NormedSpace ℝ E] {θ₀ : E}
variable {C : Chain (AD E θ₀)} {asLong : AD E θ₀ → Nat} {name : String} {n : Nat → Nat}

/-- The derivative of the control variates: the baseline of variable `i` is a mixture of the average before the
sequence, with weight `d ^ (i + 1)`, and the average cost. -/
theorem steady_deriv (N : Nat) (d c wt a₀ : ℝ) :
    ∀ (lps : List (Nat → AD E θ₀)) (i : Nat) (a : AD E θ₀) (F : Nat → AD E θ₀),
      a = AD.const (d ^ i * a₀ + (1 - d ^ i) * c) →
      (∀ r < N, DifferentiableAt ℝ (F r : E → ℝ) θ₀) →
      (∀ lp ∈ lps, ∀ r < N, DifferentiableAt ℝ (lp r : E → ℝ) θ₀) →
      (steady N (AD.const d) (AD.const c) (AD.const wt) a F lps : AD E θ₀) θ₀ = 0 ∧
      HasFDerivAt (fun θ => (steady N (AD.const d) (AD.const c) (AD.const wt) a F lps : AD E θ₀) θ)
        ((lps.zipIdx i).map (fun v => ∑ r ∈ Finset.range N,
          (-(wt * (d ^ (v.2 + 1) * a₀ + (1 - d ^ (v.2 + 1)) * c))) • fderiv ℝ (v.1 r : E → ℝ) θ₀)).sum θ₀
  | [], i, a, F, _, hF, hl => ⟨rfl, hasFDerivAt_const (0 : ℝ) θ₀⟩
  | lp :: lps, i, a, F, ha, hF, hl => by
    have hlp := hl lp (by simp)
    have hnext : AD.const d * a + (1 - AD.const d) * AD.const c =
        (AD.const (d ^ (i + 1) * a₀ + (1 - d ^ (i + 1)) * c) : AD E θ₀) := by
      rw [ha]
      funext θ
      simp only [AD.mul_apply, AD.sub_apply, AD.add_apply, AD.one_apply, AD.const_apply]
      ring
    obtain ⟨ih1, ih2⟩ := steady_deriv N d c wt a₀ lps (i + 1) _ (fun r => F r + lp r) hnext
      (fun r hr => (hF r hr).add (hlp r hr)) (fun lp' h' => hl lp' (by simp [h']))
    set A : AD E θ₀ := (∑ r ∈ Finset.range N, boxOf (F r + lp r) * ((1 - boxOf (lp r)) *
      (AD.const d * a + (1 - AD.const d) * AD.const c))) * AD.const wt with hA
    have hval : ∀ θ, A θ = ∑ r ∈ Finset.range N, (Real.exp (F r θ + lp r θ - (F r θ₀ + lp r θ₀)) *
        (1 - Real.exp (lp r θ - lp r θ₀))) * (wt * (d ^ (i + 1) * a₀ + (1 - d ^ (i + 1)) * c)) := by
      intro θ
      rw [hA, AD.mul_apply, ad_finset_sum, Finset.sum_mul]
      apply Finset.sum_congr rfl
      intro r _
      rw [hnext]
      simp only [boxOf, AD.mul_apply, AD.exp_apply, AD.sub_apply, AD.add_apply, AD.detach_apply, AD.one_apply,
        AD.const_apply]
      ring
    have hd : HasFDerivAt (A : E → ℝ) (∑ r ∈ Finset.range N,
          (-(wt * (d ^ (i + 1) * a₀ + (1 - d ^ (i + 1)) * c))) • fderiv ℝ (lp r : E → ℝ) θ₀) θ₀ := by
      have : (A : E → ℝ) = fun θ => ∑ r ∈ Finset.range N, (Real.exp (F r θ + lp r θ - (F r θ₀ + lp r θ₀)) *
        (1 - Real.exp (lp r θ - lp r θ₀))) * (wt * (d ^ (i + 1) * a₀ + (1 - d ^ (i + 1)) * c)) := funext hval
      rw [this]
      apply HasFDerivAt.fun_sum
      intro r hr
      have hr' := Finset.mem_range.1 hr
      have e1 : HasFDerivAt (fun θ => Real.exp (F r θ + lp r θ - (F r θ₀ + lp r θ₀)))
          (Real.exp (F r θ₀ + lp r θ₀ - (F r θ₀ + lp r θ₀)) • (fderiv ℝ (F r : E → ℝ) θ₀ + fderiv ℝ (lp r : E → ℝ) θ₀)) θ₀ :=
        (((hF r hr').hasFDerivAt.add (hlp r hr').hasFDerivAt).sub_const (F r θ₀ + lp r θ₀)).exp
      have e2 := (((hlp r hr').hasFDerivAt.sub_const (lp r θ₀)).exp).const_sub 1
      refine ((e1.mul e2).mul_const _).congr_fderiv ?_
      ext y
      simp
    refine ⟨?_, ?_⟩
    · rw [steady, AD.add_apply, ih1, ← hA, hval, add_zero]
      apply Finset.sum_eq_zero
      intro r _
      simp
    · rw [List.zipIdx_cons, List.map_cons, List.sum_cons]
      exact hd.add ih2

/-- The part of the gradient that is lost: for the variable with index `i` the expectation of the cost times the score,
times `(1 - d ^ (i + 1)) / N`.  Specification, not code. -/
noncomputable def lostPart {X : Type _} [Fintype X] (N : Nat) (d : ℝ) (q : List (E → X → ℝ)) (f : E → X → ℝ) (θ₀ : E) :
    E →L[ℝ] ℝ :=
  (q.zipIdx.map (fun v => ((1 - d ^ (v.2 + 1)) / (N : ℝ)) •
    ∑ x, (q.map (fun p => p θ₀ x)).prod • (f θ₀ x • fderiv ℝ (fun θ => Real.log (v.1 θ x)) θ₀))).sum

/-- The moving average baseline biases the score function on sequences, for a variable the more the later its estimator is called: under the
hypotheses of `C99_batch_unbiased_partial` the loss evaluates to the average cost, but the expectation of its gradient misses
`lostPart`; the average `a` before the sequence has no influence.  Missing from C99: that term is not zero (`C99_moving_refuted`);
what `C99_moving_loss_partial` misses; probabilities that are zero. -/
theorem C99_moving_bias_partial (h : Steps C name n) (hn : ∀ i j, n i = n j) (hsel : ∀ i, C.sel name i = none) (k : Nat)
    (hf : ∀ i, NameFree name (C.plate name i).parents)
    (hw : ∀ i, (C.plate name i).weight = .torch (Ten.scalar (AD.const (1 / (n k : ℝ)))))
    {X : Type _} [Fintype X] (q : List (E → X → ℝ)) (hq : q ≠ [])
    (hpos : ∀ p ∈ q, ∀ x, 0 < p θ₀ x) (hdiff : ∀ p ∈ q, ∀ x, DifferentiableAt ℝ (fun θ => p θ x) θ₀)
    (hone : ∀ q₁ p q₂, q = q₁ ++ p :: q₂ → ∀ᶠ θ in nhds θ₀,
      ∑ x, (q₁.map (fun p => p θ₀ x)).prod * (p θ x * (q₂.map (fun p => p θ₀ x)).prod) = 1)
    (f : E → X → ℝ) (hfd : ∀ x, DifferentiableAt ℝ (fun θ => f θ x) θ₀)
    (c : (Fin (n k) → X) → STen (AD E θ₀)) (g : (Fin (n k) → X) → Nat → List Nat → AD E θ₀)
    (hc : ∀ ω, At C name n [] k (g ω) (c ω)) (hg : ∀ ω (r : Fin (n k)), g ω r [] = fun θ => f θ (ω r))
    (vars : (Fin (n k) → X) → List (StepVar (AD E θ₀))) (hv : ∀ ω, ∀ v ∈ vars ω, v.OK C name n k)
    (hvq : ∀ ω, List.Forall₂ (fun v p => ∀ r : Fin (n k), v.lp r = fun θ => Real.log (p θ (ω r))) (vars ω) q)
    (inv : Nat → AD E θ₀) (m : Nat) (pn : String) (d a : ℝ) :
    ∃ L : (Fin (n k) → X) → STen (AD E θ₀),
      (∀ ω, surrogateCost (C.hook asLong) (c ω) (movingVars (C.hook asLong) inv m pn (AD.const d)
        (AD.const ((∑ r, f θ₀ (ω r)) / (n k : ℝ))) (AD.const a) (vars ω)) = .ok (.st (L ω) false)) ∧
      (∀ ω, (L ω).ten.shape = [] ∧ ((L ω).ten.get []).val = (∑ r, f θ₀ (ω r)) / (n k : ℝ)) ∧
      HasFDerivAt (fun θ => ∑ x, (q.map (fun p => p θ x)).prod * f θ x)
        (∑ ω : Fin (n k) → X, (∏ r, (q.map (fun p => p θ₀ (ω r))).prod) • fderiv ℝ ((L ω).ten.get [] : E → ℝ) θ₀ +
          lostPart (n k) d q f θ₀) θ₀ := by
  have hN : (n k : ℝ) ≠ 0 := by
    have := h.multi k
    positivity
  have hP1 : ∑ x, (q.map (fun p => p θ₀ x)).prod = 1 := by
    cases q with
    | nil => exact absurd rfl hq
    | cons p q₂ =>
      have := (hone [] p q₂ rfl).self_of_nhds
      simpa using this
  have hvne : ∀ ω, vars ω ≠ [] := by
    intro ω h0
    have := (hvq ω).length_eq
    rw [h0] at this
    exact hq (List.length_eq_zero_iff.1 this.symm)
  obtain ⟨L0, h1, h2, h3⟩ := C99_unbiased_partial (asLong := asLong) h hn hsel k (hf k) (hw k) q hq hpos hdiff hP1 f hfd c g
    hc hg vars hv hvq inv m pn
  have hseen : ∀ ω, averageSeen (n k) (AD.const (1 / (n k : ℝ))) (g ω) = AD.const ((∑ r, f θ₀ (ω r)) / (n k : ℝ)) := by
    intro ω
    funext θ
    rw [averageSeen, AD.detach_apply, AD.mul_apply, ad_finset_sum, AD.detach_apply, AD.const_apply, AD.const_apply,
      Finset.sum_range, mul_one_div]
    congr 1
    exact Finset.sum_congr rfl (fun r _ => by rw [hg])
  have hrun : ∀ ω, ∃ s : STen (AD E θ₀), surrogateCost (C.hook asLong) (c ω) (movingVars (C.hook asLong) inv m pn (AD.const d)
        (AD.const ((∑ r, f θ₀ (ω r)) / (n k : ℝ))) (AD.const a) (vars ω)) = .ok (.st s false) ∧ s.ten.shape = [] ∧
      s.ten.get [] = steady (n k) (AD.const d) (AD.const ((∑ r, f θ₀ (ω r)) / (n k : ℝ))) (AD.const (1 / (n k : ℝ)))
        (AD.const a) (fun _ => 0) ((vars ω).map StepVar.lp) + (L0 ω).ten.get [] := by
    intro ω
    obtain ⟨s, q1, _, q3, q4⟩ := C99_moving_loss_partial (asLong := asLong) h hn hsel k hf _ hw (g ω) (c ω) (hc ω) inv m pn
      (AD.const d) (AD.const a) (vars ω) (hvne ω) (hv ω)
    obtain ⟨s0, r1, _, _, r4⟩ := C99_loss_partial (asLong := asLong) h hn hsel k (hf k) _ (hw k) (g ω) (c ω) (hc ω) inv m pn
      (vars ω) (hvne ω) (hv ω)
    have hs0 : s0 = L0 ω := by
      have := r1.symm.trans (h1 ω)
      simpa using this
    rw [hseen] at q1 q4
    refine ⟨s, q1, q3, ?_⟩
    rw [q4, ← hs0, r4]
    rfl
  choose L hL1 hL2 hL3 using hrun
  have hlog : ∀ p ∈ q, ∀ x, DifferentiableAt ℝ (fun θ => Real.log (p θ x)) θ₀ := fun p hp x =>
    (hdiff p hp x).log (hpos p hp x).ne'
  have hvar : ∀ ω, ∀ v ∈ vars ω, ∀ r : Fin (n k), DifferentiableAt ℝ (v.lp r : E → ℝ) θ₀ := by
    intro ω v hvm r
    obtain ⟨p, hp, hpe⟩ : ∃ p ∈ q, ∀ r : Fin (n k), v.lp r = fun θ => Real.log (p θ (ω r)) := by
      have := hvq ω
      clear * - this hvm
      generalize vars ω = vs at this hvm
      induction this with
      | nil => simp at hvm
      | cons a _ ih =>
        rcases List.mem_cons.1 hvm with rfl | hm
        · exact ⟨_, by simp, a⟩
        · obtain ⟨p, hp, hh⟩ := ih hm
          exact ⟨p, by simp [hp], hh⟩
    rw [hpe r]
    exact hlog p hp _
  set S : (Fin (n k) → X) → ℝ := fun ω => (∑ r, f θ₀ (ω r)) / (n k : ℝ) with hS
  set D : (Fin (n k) → X) → List ((E → X → ℝ) × Nat) → E →L[ℝ] ℝ := fun ω l => (l.map (fun v => ∑ r : Fin (n k),
    (-((1 / (n k : ℝ)) * (d ^ (v.2 + 1) * a + (1 - d ^ (v.2 + 1)) * S ω))) •
      fderiv ℝ (fun θ => Real.log (v.1 θ (ω r))) θ₀)).sum with hD
  have hvd : ∀ ω, (steady (n k) (AD.const d) (AD.const (S ω)) (AD.const (1 / (n k : ℝ))) (AD.const a) (fun _ => 0)
        ((vars ω).map StepVar.lp) : AD E θ₀) θ₀ = 0 ∧
      HasFDerivAt (fun θ => (steady (n k) (AD.const d) (AD.const (S ω)) (AD.const (1 / (n k : ℝ))) (AD.const a) (fun _ => 0)
        ((vars ω).map StepVar.lp) : AD E θ₀) θ) (D ω q.zipIdx) θ₀ := by
    intro ω
    obtain ⟨e1, e2⟩ := steady_deriv (θ₀ := θ₀) (n k) d (S ω) (1 / (n k : ℝ)) a
      ((vars ω).map StepVar.lp) 0 (AD.const a) (fun _ => 0) (by simp) (fun _ _ => differentiableAt_const (0 : ℝ)) (by
        intro lp hlp r hr
        obtain ⟨v, hvm, rfl⟩ := List.mem_map.1 hlp
        exact hvar ω v hvm ⟨r, hr⟩)
    refine ⟨e1, e2.congr_fderiv ?_⟩
    have := hvq ω
    rw [hD]
    dsimp only
    clear * - this
    generalize vars ω = vs at this ⊢
    generalize 0 = i
    induction this generalizing i with
    | nil => rfl
    | cons b _ ih =>
      rw [List.map_cons, List.zipIdx_cons, List.zipIdx_cons, List.map_cons, List.sum_cons, List.map_cons, List.sum_cons, ih]
      congr 1
      rw [Finset.sum_range]
      apply Finset.sum_congr rfl
      intro r _
      dsimp only
      rw [b r]
  have hL0d : ∀ ω, DifferentiableAt ℝ ((L0 ω).ten.get [] : E → ℝ) θ₀ := by
    intro ω
    obtain ⟨s0, r1, _, _, r4⟩ := C99_loss_partial (asLong := asLong) h hn hsel k (hf k) _ (hw k) (g ω) (c ω) (hc ω) inv m pn
      (vars ω) (hvne ω) (hv ω)
    have hs0 : s0 = L0 ω := by
      have := r1.symm.trans (h1 ω)
      simpa using this
    have hsum : ∀ r : Fin (n k), DifferentiableAt ℝ (((vars ω).map (fun v => v.lp r)).sum : E → ℝ) θ₀ := by
      intro r
      have : ∀ vs : List (StepVar (AD E θ₀)), (∀ v ∈ vs, DifferentiableAt ℝ (v.lp r : E → ℝ) θ₀) →
          DifferentiableAt ℝ ((vs.map (fun v => v.lp r)).sum : E → ℝ) θ₀ := by
        intro vs hvs
        induction vs with
        | nil => exact differentiableAt_const (0 : ℝ)
        | cons v vs ih => exact (hvs v (by simp)).add (ih (fun v' h' => hvs v' (by simp [h'])))
      exact this _ (fun v hvm => hvar ω v hvm r)
    rw [← hs0, r4]
    have : (((∑ r ∈ Finset.range (n k), Autograd.exp (((vars ω).map (fun v => v.lp r)).sum -
        Autograd.detach ((vars ω).map (fun v => v.lp r)).sum) * g ω r []) * AD.const (1 / (n k : ℝ)) : AD E θ₀) : E → ℝ) =
        fun θ => (∑ r : Fin (n k), Real.exp (((vars ω).map (fun v => v.lp r)).sum θ -
          ((vars ω).map (fun v => v.lp r)).sum θ₀) * f θ (ω r)) * (1 / (n k : ℝ)) := by
      funext θ
      rw [AD.mul_apply, ad_finset_sum, Finset.sum_range, AD.const_apply]
      congr 1
      apply Finset.sum_congr rfl
      intro r _
      rw [AD.mul_apply, AD.exp_apply, AD.sub_apply, AD.detach_apply, hg]
    rw [this]
    exact (DifferentiableAt.fun_sum (fun r _ => (((hsum r).sub_const _).exp).mul (hfd (ω r)))).mul_const _
  have hzero : ∀ p ∈ q, ∑ x, (q.map (fun p => p θ₀ x)).prod • fderiv ℝ (fun θ => Real.log (p θ x)) θ₀ = 0 := by
    intro p hp
    obtain ⟨q₁, q₂, rfl⟩ := List.append_of_mem hp
    have e1 : HasFDerivAt (fun θ => ∑ x, (q₁.map (fun p => p θ₀ x)).prod * (p θ x * (q₂.map (fun p => p θ₀ x)).prod))
        (∑ x, (q₁.map (fun p => p θ₀ x)).prod • ((q₂.map (fun p => p θ₀ x)).prod • fderiv ℝ (fun θ => p θ x) θ₀)) θ₀ := by
      apply HasFDerivAt.fun_sum
      intro x _
      exact ((hdiff p (by simp) x).hasFDerivAt.mul_const _).const_mul _
    have e2 : HasFDerivAt (fun θ => ∑ x, (q₁.map (fun p => p θ₀ x)).prod * (p θ x * (q₂.map (fun p => p θ₀ x)).prod))
        (0 : E →L[ℝ] ℝ) θ₀ := (hasFDerivAt_const (1 : ℝ) θ₀).congr_of_eventuallyEq (hone q₁ p q₂ rfl)
    rw [← e1.unique e2]
    apply Finset.sum_congr rfl
    intro x _
    rw [((hdiff p (by simp) x).hasFDerivAt.log (hpos p (by simp) x).ne').fderiv, smul_smul, smul_smul, List.map_append,
      List.map_cons, List.prod_append, List.prod_cons]
    congr 1
    have := (hpos p (by simp) x).ne'
    field_simp
  refine ⟨L, hL1, fun ω => ⟨hL2 ω, ?_⟩, ?_⟩
  · rw [← (h2 ω).2, AD.val, AD.val, hL3, AD.add_apply, (hvd ω).1, zero_add]
  · refine h3.congr_fderiv ?_
    have hsplit : ∀ ω, fderiv ℝ ((L ω).ten.get [] : E → ℝ) θ₀ = D ω q.zipIdx + fderiv ℝ ((L0 ω).ten.get [] : E → ℝ) θ₀ := by
      intro ω
      rw [hL3]
      exact ((hvd ω).2.add (hL0d ω).hasFDerivAt).fderiv
    simp only [hsplit, smul_add, Finset.sum_add_distrib]
    have key : ∀ l : List ((E → X → ℝ) × Nat), (∀ v ∈ l, v.1 ∈ q) →
        ∑ ω : Fin (n k) → X, (∏ r, (q.map (fun p => p θ₀ (ω r))).prod) • D ω l =
          -(l.map (fun v => ((1 - d ^ (v.2 + 1)) / (n k : ℝ)) •
            ∑ x, (q.map (fun p => p θ₀ x)).prod • (f θ₀ x • fderiv ℝ (fun θ => Real.log (v.1 θ x)) θ₀))).sum := by
      intro l hl
      induction l with
      | nil => simp [hD]
      | cons v l ih =>
        have hcons : ∀ ω, D ω (v :: l) = ∑ r : Fin (n k),
            (-((1 / (n k : ℝ)) * (d ^ (v.2 + 1) * a + (1 - d ^ (v.2 + 1)) * S ω))) •
              fderiv ℝ (fun θ => Real.log (v.1 θ (ω r))) θ₀ + D ω l := by
          intro ω
          simp only [hD, List.map_cons, List.sum_cons]
        simp only [hcons, smul_add, Finset.sum_add_distrib]
        rw [ih (fun v' h' => hl v' (by simp [h'])), List.map_cons, List.sum_cons, neg_add]
        congr 1
        simp only [Finset.smul_sum]
        rw [Finset.sum_comm]
        have hz := hzero v.1 (hl v (by simp))
        have hj : ∀ j : Fin (n k), ∑ ω : Fin (n k) → X, (∏ r, (q.map (fun p => p θ₀ (ω r))).prod) •
            ((-((1 / (n k : ℝ)) * (d ^ (v.2 + 1) * a + (1 - d ^ (v.2 + 1)) * S ω))) •
              fderiv ℝ (fun θ => Real.log (v.1 θ (ω j))) θ₀) =
            (-((1 - d ^ (v.2 + 1)) / ((n k : ℝ) * (n k : ℝ)))) •
              ∑ x, (q.map (fun p => p θ₀ x)).prod • (f θ₀ x • fderiv ℝ (fun θ => Real.log (v.1 θ x)) θ₀) := by
          intro j
          have t1 := mean_of_one (fun x => (q.map (fun p => p θ₀ x)).prod) hP1
            (fun x => fderiv ℝ (fun θ => Real.log (v.1 θ x)) θ₀) j
          rw [hz] at t1
          have t2 := mean_all (fun x => (q.map (fun p => p θ₀ x)).prod) (f θ₀)
            (fun x => fderiv ℝ (fun θ => Real.log (v.1 θ x)) θ₀) hP1 hz j
          rw [← t2, ← add_zero ((-((1 - d ^ (v.2 + 1)) / ((n k : ℝ) * (n k : ℝ)))) • _),
            ← smul_zero (-((1 / (n k : ℝ)) * (d ^ (v.2 + 1) * a))), ← t1, Finset.smul_sum, Finset.smul_sum,
            ← Finset.sum_add_distrib]
          apply Finset.sum_congr rfl
          intro ω _
          simp only [smul_smul]
          rw [← add_smul]
          congr 1
          simp only [hS]
          field_simp
          ring
        simp only [hj]
        rw [Finset.sum_const, Finset.card_univ, Fintype.card_fin, ← Nat.cast_smul_eq_nsmul ℝ, smul_smul, ← Finset.smul_sum,
          ← neg_smul]
        congr 1
        field_simp
    rw [key q.zipIdx (by
      intro v hvm
      obtain ⟨x, i⟩ := v
      exact (List.mem_zipIdx' hvm).2 ▸ List.getElem_mem _)]
    rw [lostPart]
    abel

end

namespace SeqLossCase

theorem bit_half (b : Bool) : bit 0 b = 1 / 2 := by
  cases b <;> simp [bit]

theorem bit_deriv (b : Bool) : HasDerivAt (fun θ => bit θ b) (if b then 1 else -1) 0 := by
  cases b
  · show HasDerivAt (fun θ : ℝ => 1 / 2 - θ) (-1) 0
    exact (hasDerivAt_id (0 : ℝ)).const_sub (1 / 2)
  · show HasDerivAt (fun θ : ℝ => 1 / 2 + θ) 1 0
    exact (hasDerivAt_id (0 : ℝ)).const_add (1 / 2)

theorem log_bit (b : Bool) : fderiv ℝ (fun θ => Real.log (bit θ b)) 0 1 = if b then 2 else -2 := by
  have h := (bit_deriv b).log (by rw [bit_half]; norm_num)
  rw [fderiv_apply_one_eq_deriv, h.deriv, bit_half]
  cases b <;> norm_num

theorem factors_one : ∀ q₁ p q₂, factors = q₁ ++ p :: q₂ → ∀ᶠ θ in nhds (0 : ℝ),
    ∑ x, (q₁.map (fun p => p 0 x)).prod * (p θ x * (q₂.map (fun p => p 0 x)).prod) = 1 := by
  intro q₁ p q₂ hq
  refine Filter.Eventually.of_forall (fun θ => ?_)
  match q₁, hq with
  | [], hq =>
    simp only [factors, List.nil_append, List.cons.injEq] at hq
    obtain ⟨rfl, rfl⟩ := hq
    rw [Fintype.sum_prod_type]
    simp [bit_half]
    simp [bit]
    ring
  | [a], hq =>
    simp only [factors, List.singleton_append, List.cons.injEq] at hq
    obtain ⟨rfl, rfl, rfl⟩ := hq
    rw [Fintype.sum_prod_type]
    simp [bit_half]
    simp [bit]
    ring
  | a :: b :: q₁, hq =>
    simp [factors] at hq

/-- A case for `C99_moving_loss_partial`: two bits and their cost. -/
example (ω : Fin 2 → Bool × Bool) (asLong : V → Nat) (d a : V) :
    ∃ s, surrogateCost (pairs.hook asLong) (row 1 (fun r θ => price θ (draw ω r)))
        (movingVars (pairs.hook asLong) (fun _ => 0) 2 "z" d
          (averageSeen 2 (AD.const (1 / ((2 : ℕ) : ℝ))) (fun r _ θ => price θ (draw ω r))) a (bits ω)) =
        .ok (.st s false) ∧ s.ten.shape = [] := by
  obtain ⟨s, h1, _, h3, _⟩ := C99_moving_loss_partial (asLong := asLong) pairs_steps (fun _ _ => rfl) (fun _ => rfl) 1
    (fun _ _ hp => absurd hp (by simp [pairs, Plate.parents])) _ (fun _ => rfl) _ _
    (row_at 1 (fun r θ => price θ (draw ω r))) (fun _ => 0) 2 "z" d a (bits ω) (by simp [bits]) (bits_ok ω)
  exact ⟨s, h1, h3⟩

/-- With the moving average and its default decay, whatever the average was before, the gradient of two bits is biased: the
gradient of the expected cost is 3, the expectation of the gradient of the surrogate loss is 2341/800. -/
theorem C99_moving_refuted (asLong : V → Nat) (a : ℝ) :
    ∃ L : (Fin 2 → Bool × Bool) → STen V,
      (∀ ω, surrogateCost (pairs.hook asLong) (row 1 (fun r θ => price θ (draw ω r)))
        (movingVars (pairs.hook asLong) (fun _ => 0) 2 "z" (AD.const (19 / 20))
          (AD.const ((∑ r, price 0 (ω r)) / ((2 : ℕ) : ℝ))) (AD.const a) (bits ω)) = .ok (.st (L ω) false)) ∧
      HasFDerivAt (fun θ => ∑ x, (factors.map (fun p => p θ x)).prod * price θ x)
        (ContinuousLinearMap.toSpanSingleton ℝ (3 : ℝ)) 0 ∧
      (∑ ω : Fin 2 → Bool × Bool, (∏ r, (factors.map (fun p => p 0 (ω r))).prod) •
        fderiv ℝ ((L ω).ten.get [] : ℝ → ℝ) 0) 1 = 2341 / 800 := by
  obtain ⟨L, h1, _, h3⟩ := C99_moving_bias_partial (asLong := asLong) pairs_steps (fun _ _ => rfl) (fun _ => rfl) 1
    (fun _ _ hp => absurd hp (by simp [pairs, Plate.parents])) (fun _ => rfl) factors (by simp [factors])
    (by
      intro p hp x
      simp only [factors, List.mem_cons, List.not_mem_nil, or_false] at hp
      rcases hp with rfl | rfl <;> simp [bit_half])
    (by
      intro p hp x
      simp only [factors, List.mem_cons, List.not_mem_nil, or_false] at hp
      rcases hp with rfl | rfl
      · exact (bit_deriv _).differentiableAt
      · exact (bit_deriv _).differentiableAt)
    factors_one
    price (fun x => (differentiableAt_id (𝕜 := ℝ) (x := (0 : ℝ))).const_add _)
    (fun ω => row 1 (fun r θ => price θ (draw ω r))) (fun ω r _ θ => price θ (draw ω r)) (fun ω => row_at 1 _)
    (fun ω r => by simp only [draw_eq]; rfl) bits bits_ok
    (fun ω => by
      refine .cons (fun r => ?_) (.cons (fun r => ?_) .nil)
      · simp only [draw_eq]
      · simp only [draw_eq])
    (fun _ => 0) 2 "z" (19 / 20) a
  have hexp : (fun θ : ℝ => ∑ x, (factors.map (fun p => p θ x)).prod * price θ x) = fun θ => 3 / 2 + (3 * θ + 2 * θ ^ 2) := by
    funext θ
    rw [Fintype.sum_prod_type]
    simp [factors, bit, price]
    ring
  have hd : HasFDerivAt (fun θ : ℝ => ∑ x, (factors.map (fun p => p θ x)).prod * price θ x)
      (ContinuousLinearMap.toSpanSingleton ℝ (3 : ℝ)) 0 := by
    rw [hexp]
    have e := (((hasDerivAt_id (0 : ℝ)).const_mul 3).add (((hasDerivAt_id (0 : ℝ)).pow 2).const_mul 2)).const_add (3 / 2)
    have e' : HasDerivAt (fun θ : ℝ => 3 / 2 + (3 * θ + 2 * θ ^ 2)) 3 0 := by
      refine e.congr_deriv ?_
      norm_num
    exact e'.hasFDerivAt
  refine ⟨L, h1, hd, ?_⟩
  have hlost : lostPart 2 (19 / 20) factors price (0 : ℝ) 1 = 59 / 800 := by
    simp only [lostPart, factors, List.zipIdx_cons, List.zipIdx_nil, List.map_cons, List.map_nil, List.sum_cons, List.sum_nil,
      List.prod_cons, List.prod_nil, Fintype.sum_prod_type, Fintype.sum_bool, add_apply,
      smul_apply, zero_apply, log_bit, bit_half, price, smul_eq_mul]
    norm_num
  have e := congrArg (fun A : ℝ →L[ℝ] ℝ => A 1) (h3.unique hd)
  rw [add_apply, hlost, ContinuousLinearMap.toSpanSingleton_apply] at e
  have e2 := eq_sub_of_add_eq e
  refine e2.trans ?_
  norm_num

end SeqLossCase

end Storch
