import Verif.Lemmas.SeqBatchLemmas
import Verif.Props.SeqLossProps

/-!
# C99: the batch average baseline on decoded sequences
-/

namespace Storch

section
variable {α : Type _}

/-- The magic box of a number: one, with the derivative of the number.  Specification, not code. -/
def boxOf [Ring α] [Autograd α] (x : α) : α := Autograd.exp (x - Autograd.detach x)

/-- The sum of the costs of the other sequences, times `w`.  Specification, not code. -/
def othersOf [CommRing α] [Autograd α] (N : Nat) (w : α) (g : Nat → α) (r : Nat) : α :=
  (∑ s ∈ Finset.range N, Autograd.detach (g s) - Autograd.detach (g r)) * w

/-- The control variates of the variables with log-probabilities `lps`, when the log-probabilities of the variables before
them add up to `F`.  Specification, not code. -/
def variates [CommRing α] [Autograd α] (N : Nat) (w wt : α) (g : Nat → α) : (Nat → α) → List (Nat → α) → α
  | _, [] => 0
  | F, lp :: lps =>
    (∑ r ∈ Finset.range N, boxOf (F r + lp r) * ((1 - boxOf (lp r)) * othersOf N w g r)) * wt +
      variates N w wt g (fun r => F r + lp r) lps

variable [ValEq α]
variable {C : Chain α} {asLong : α → Nat} {name : String} {n : Nat → Nat}

/-- The estimator of a variable of one step, with the batch average. -/
theorem batch_estimate [CommRing α] [Autograd α] (h : Steps C name n) (hn : ∀ i j, n i = n j)
    (hsel : ∀ i, C.sel name i = none) (k : Nat) (g : Nat → List Nat → α) (c : STen α) (hc : At C name n [] k g c)
    (inv : Nat → α) (v : StepVar α) (hv : v.OK C name n k) :
    ∃ s cv, scoreEstimator (C.hook asLong) inv v.logProb (n k) name (some .batchAverage) v.tensor c =
        .ok (some (.st s false), some (.st cv false)) ∧ At C name n [] v.step (fun r _ => v.lp r) s ∧
      At C name n [] k (fun r _ => (1 - boxOf (v.lp r)) * othersOf (n k) (inv (n k - 1)) (fun r => g r []) r) cv := by
  obtain ⟨hvk, ⟨ev, f, hvt⟩, s, hs1, hs2⟩ := hv
  obtain ⟨d, hd1, hd2⟩ := unary_call h k (C.hook asLong) detachElts [] _ c false hc (hook_own h hn hsel hc)
  obtain ⟨u, hu1, hu2⟩ := sum_at h k (C.hook asLong) _ d hd2 (hook_own h hn hsel hd2)
  obtain ⟨o, ho1, ho2⟩ := flat_at_call (asLong := asLong) h hn hsel k (looElts (inv (n k - 1))) hu2 d false false _ hd2
  obtain ⟨b, hb1, hb2⟩ := box_at (asLong := asLong) h hn hsel v.step _ s false hs2
  obtain ⟨cv, hcv1, hcv2⟩ := binary_call (asLong := asLong) h hn hsel [] v.step k oneMinusElts b o false false _ _ hb2 ho2
  rw [max_eq_right hvk] at hcv2
  refine ⟨s, cv, ?_, hs2, ?_⟩
  · unfold scoreEstimator
    simp only [hs1]
    rw [if_neg (by rw [hvt.2.1, Ten.ndim, hs2.2.2.1]; simp)]
    have hne : n k ≠ 1 := by
      have := h.multi k
      omega
    simp only [computeBaseline, if_neg hne, opCall, hd1, hu1, ho1, hb1, hcv1]
  · refine ⟨hcv2.1, hcv2.2.1, hcv2.2.2.1, ?_⟩
    intro r e hr he
    cases he
    rw [hcv2.2.2.2 r [] hr List.Forall₂.nil]
    rfl

/-- What happens to the two sums for one variable. -/
theorem batch_add [CommRing α] [Autograd α] (h : Steps C name n) (hn : ∀ i j, n i = n j)
    (hsel : ∀ i, C.sel name i = none) (k : Nat) (hf : NameFree name (C.plate name k).parents) (wt : α)
    (hw : (C.plate name k).weight = .torch (Ten.scalar wt)) (lo : Operand α) (gf : Operand α) (l cv : STen α) (i : Nat)
    (hi : i ≤ k) (F K : Nat → α) (hl : opCall (C.hook asLong) List.sum [lo, gf] = .ok (.st l false))
    (hl' : At C name n [] i (fun r _ => F r) l)
    (hcv : At C name n [] k (fun r _ => K r) cv) (x : α) (so : Operand α) (hso : PlainOp x so) :
    ∃ s', addEstimate (C.hook asLong) (some gf, some (.st cv false)) (lo, so) = .ok (.st l false, .st s' false) ∧
      Flat (x + (∑ r ∈ Finset.range (n k), boxOf (F r) * K r) * wt) s' := by
  obtain ⟨b, hb1, hb2⟩ := box_at (asLong := asLong) h hn hsel i _ l false hl'
  obtain ⟨a, ha1, ha2⟩ := binary_call (asLong := asLong) h hn hsel [] i k List.prod b cv false false _ _ hb2 hcv
  rw [max_eq_right hi] at ha2
  obtain ⟨t, ht1, ht2⟩ := reduce_at h k (C.hook asLong) _ a false ha2 (hook_own h hn hsel ha2) wt hw hf
  obtain ⟨s', hs1, hs2⟩ := plainOp_call (C.hook asLong) List.sum hso ht2 false
  have hsq : squeezeScalar (C.hook asLong) t = .ok t := by
    unfold squeezeScalar
    rw [if_neg (by simp [Ten.ndim, ht2.2.2.1])]
  refine ⟨s', ?_, ?_⟩
  · unfold addEstimate
    simp only [hl, hb1]
    simp only [opCall, ha1, ht1, hsq, hs1]
  · simpa [boxOf] using hs2

theorem batch_loop [CommRing α] [Autograd α] (h : Steps C name n) (hn : ∀ i j, n i = n j)
    (hsel : ∀ i, C.sel name i = none) (k : Nat) (hf : NameFree name (C.plate name k).parents) (wt : α)
    (hw : (C.plate name k).weight = .torch (Ten.scalar wt))
    (g : Nat → List Nat → α) (c : STen α) (hc : At C name n [] k g c) (inv : Nat → α) :
    ∀ (vars : List (StepVar α)), (∀ v ∈ vars, v.OK C name n k) → ∀ i, i ≤ k → ∀ (L : STen α) (F : Nat → α),
      At C name n [] i (fun r _ => F r) L → ∀ (x : α) (s : STen α), Flat x s →
      ∃ i' L' s', i' ≤ k ∧ parentLoop (C.hook asLong) c
          (vars.map (fun v => scoreSampled (C.hook asLong) inv v.logProb (n k) name (some .batchAverage) v.tensor))
            (.st L false, .st s false) = .ok (.st L' false, .st s' false) ∧
        At C name n [] i' (fun r _ => F r + (vars.map (fun v => v.lp r)).sum) L' ∧
        Flat (x + variates (n k) (inv (n k - 1)) wt (fun r => g r []) F (vars.map StepVar.lp)) s'
  | [], _, i, hi, L, F, hL, x, s, hs => ⟨i, L, s, hi, rfl, by simpa using hL, by simpa [variates] using hs⟩
  | v :: vars, hv, i, hi, L, F, hL, x, s, hs => by
    obtain ⟨hvk, ⟨ev, f, hvt⟩, _⟩ := hv v (by simp)
    obtain ⟨hg1, hg2⟩ := C99_given h (C.hook asLong) v.step k hf ev [] f g v.tensor c hvt hc
    obtain ⟨e, cv, he, he1, he2⟩ := batch_estimate (asLong := asLong) h hn hsel k g c hc inv v (hv v (by simp))
    obtain ⟨u, hu1, hu2⟩ := binary_call (asLong := asLong) h hn hsel [] i v.step List.sum L e false false _ _ hL he1
    obtain ⟨s1, ha1, ha2⟩ := batch_add (asLong := asLong) h hn hsel k hf wt hw (.st L false) (.st e false) u cv
      (max i v.step) (by omega) (fun r => F r + v.lp r) _ (by simp only [opCall, hu1]) (by simpa using hu2) he2 x
      (.st s false) (Or.inr ⟨s, rfl, hs⟩)
    obtain ⟨i', L', s', q1, q2, q3, q4⟩ := batch_loop h hn hsel k hf wt hw g c hc inv vars
      (fun v' hv' => hv v' (by simp [hv'])) (max i v.step) (by omega) u (fun r => F r + v.lp r) (by simpa using hu2)
      _ s1 ha2
    refine ⟨i', L', s', q1, ?_, ?_, ?_⟩
    · rw [List.map_cons, parentLoop]
      simp only [scoreSampled, Bool.false_eq_true, if_false, hg1, hg2, he, ha1]
      exact q2
    · simpa [add_assoc] using q3
    · simpa [variates, add_assoc] using q4

/-- The surrogate loss of a cost at the last step of a sequence with the batch average baseline: the loss without a
baseline, and for every variable the weighted sum of its control variates.  With a decoder this baseline can only be chosen by
a function that makes it (method.py:538-539), as its name is refused (method.py:543-548, `C87_accepts`).  Missing from C99: decoders that
select, further plates. -/
theorem C99_batch_loss_partial [CommRing α] [Autograd α] (h : Steps C name n) (hn : ∀ i j, n i = n j)
    (hsel : ∀ i, C.sel name i = none) (k : Nat) (hf : NameFree name (C.plate name k).parents) (wt : α)
    (hw : (C.plate name k).weight = .torch (Ten.scalar wt))
    (g : Nat → List Nat → α) (c : STen α) (hc : At C name n [] k g c) (inv : Nat → α)
    (vars : List (StepVar α)) (hne : vars ≠ []) (hv : ∀ v ∈ vars, v.OK C name n k) :
    ∃ s, surrogateCost (C.hook asLong) c
        (vars.map (fun v => scoreSampled (C.hook asLong) inv v.logProb (n k) name (some .batchAverage) v.tensor)) =
          .ok (.st s false) ∧
      s.plates = [] ∧ s.ten.shape = [] ∧
      s.ten.get [] = variates (n k) (inv (n k - 1)) wt (fun r => g r []) (fun _ => 0) (vars.map StepVar.lp) +
        (∑ r ∈ Finset.range (n k), boxOf (vars.map (fun v => v.lp r)).sum * g r []) * wt := by
  have hloop : ∃ i L s, i ≤ k ∧ parentLoop (C.hook asLong) c
      (vars.map (fun v => scoreSampled (C.hook asLong) inv v.logProb (n k) name (some .batchAverage) v.tensor))
        (.torch (.scalar 0), .torch (.scalar 0)) = .ok (.st L false, .st s false) ∧
      At C name n [] i (fun r _ => (vars.map (fun v => v.lp r)).sum) L ∧
      Flat (variates (n k) (inv (n k - 1)) wt (fun r => g r []) (fun _ => 0) (vars.map StepVar.lp)) s := by
    cases vars with
    | nil => exact absurd rfl hne
    | cons v vars =>
      obtain ⟨hvk, ⟨ev, f, hvt⟩, _⟩ := hv v (by simp)
      obtain ⟨hg1, hg2⟩ := C99_given h (C.hook asLong) v.step k hf ev [] f g v.tensor c hvt hc
      obtain ⟨e, cv, he, he1, he2⟩ := batch_estimate (asLong := asLong) h hn hsel k g c hc inv v (hv v (by simp))
      obtain ⟨u, hu1, hu2⟩ := scalar_call h v.step (C.hook asLong) List.sum 0 [] _ e false he1 (hook_own h hn hsel he1)
      obtain ⟨s1, ha1, ha2⟩ := batch_add (asLong := asLong) h hn hsel k hf wt hw (.torch (.scalar 0)) (.st e false) u cv
        v.step hvk (fun r => v.lp r) _ (by simp only [opCall, hu1]) (by simpa using hu2) he2 0
        (.torch (.scalar 0)) (Or.inl rfl)
      obtain ⟨i', L', s', q1, q2, q3, q4⟩ := batch_loop (asLong := asLong) h hn hsel k hf wt hw g c hc inv vars
        (fun v' hv' => hv v' (by simp [hv'])) v.step hvk u (fun r => v.lp r) (by simpa using hu2) _ s1 ha2
      refine ⟨i', L', s', q1, ?_, by simpa using q3, by simpa [variates] using q4⟩
      rw [List.map_cons, parentLoop]
      simp only [scoreSampled, Bool.false_eq_true, if_false, hg1, hg2, he, ha1]
      exact q2
  obtain ⟨i, L, x, hik, hl, hL, hx⟩ := hloop
  obtain ⟨b, hb1, hb2⟩ := box_at (asLong := asLong) h hn hsel i _ L false hL
  obtain ⟨a, ha1, ha2⟩ := binary_call (asLong := asLong) h hn hsel [] i k List.prod b c false false _ _ hb2 hc
  rw [max_eq_right hik] at ha2
  obtain ⟨s, hs1, hs2⟩ := reduce_at h k (C.hook asLong) _ a false ha2 (hook_own h hn hsel ha2) wt hw hf
  obtain ⟨u, hu1, hu2⟩ := flat_flat_call (C.hook asLong) List.sum hx hs2 false false
  refine ⟨u, ?_, hu2.1, hu2.2.2.1, ?_⟩
  · unfold surrogateCost
    simp only [hl, hb1]
    simp only [opCall, ha1, hs1, hu1]
  · rw [hu2.2.2.2]
    simp [boxOf]

end

/-- Independent draws: a function of one draw with mean zero, times the sum of a function of the other draws, has mean
zero. -/
theorem mean_others {X V : Type _} [Fintype X] [AddCommGroup V] [Module ℝ V] (P f : X → ℝ) (G : X → V)
    (hG : ∑ x, P x • G x = 0) : ∀ {N : Nat} (j : Fin N),
      ∑ ω : Fin N → X, (∏ r, P (ω r)) • ((∑ s, f (ω s) - f (ω j)) • G (ω j)) = 0
  | 0, j => j.elim0
  | N + 1, j => by
    classical
    rw [← (Fin.insertNthEquiv (fun _ => X) j).sum_comp, Fintype.sum_prod_type, Finset.sum_comm]
    apply Finset.sum_eq_zero
    intro y _
    have h1 : ∀ x : X, (∏ r, P ((Fin.insertNthEquiv (fun _ => X) j) (x, y) r)) •
        ((∑ s, f ((Fin.insertNthEquiv (fun _ => X) j) (x, y) s) - f ((Fin.insertNthEquiv (fun _ => X) j) (x, y) j)) •
          G ((Fin.insertNthEquiv (fun _ => X) j) (x, y) j)) = ((∏ r, P (y r)) * ∑ s, f (y s)) • P x • G x := by
      intro x
      rw [Fin.prod_univ_succAbove _ j, Fin.sum_univ_succAbove _ j]
      simp only [Fin.insertNthEquiv_apply, Fin.insertNth_apply_same, Fin.insertNth_apply_succAbove]
      rw [add_sub_cancel_left, smul_smul, smul_smul]
      congr 1
      ring
    simp only [h1]
    rw [← Finset.smul_sum, hG, smul_zero]

section
variable {E : Type _} [NormedAddCommGroup E] [NormedSpace ℝ E] {θ₀ : E}
variable {C : Chain (AD E θ₀)} {asLong : AD E θ₀ → Nat} {name : String} {n : Nat → Nat}

/-- The derivative of the control variates. -/
theorem variates_deriv (N : Nat) (w wt : ℝ) (g : Nat → AD E θ₀) :
    ∀ (lps : List (Nat → AD E θ₀)) (F : Nat → AD E θ₀),
      (∀ r < N, DifferentiableAt ℝ (F r : E → ℝ) θ₀) →
      (∀ lp ∈ lps, ∀ r < N, DifferentiableAt ℝ (lp r : E → ℝ) θ₀) →
      (variates N (AD.const w) (AD.const wt) g F lps : AD E θ₀) θ₀ = 0 ∧
      HasFDerivAt (fun θ => (variates N (AD.const w) (AD.const wt) g F lps : AD E θ₀) θ)
        (lps.map (fun lp => ∑ r ∈ Finset.range N,
          (-(wt * w)) • ((∑ s ∈ Finset.range N, g s θ₀ - g r θ₀) • fderiv ℝ (lp r : E → ℝ) θ₀))).sum θ₀
  | [], F, hF, hl => ⟨rfl, hasFDerivAt_const (0 : ℝ) θ₀⟩
  | lp :: lps, F, hF, hl => by
    have hlp := hl lp (by simp)
    obtain ⟨ih1, ih2⟩ := variates_deriv N w wt g lps (fun r => F r + lp r) (fun r hr => (hF r hr).add (hlp r hr))
      (fun lp' h' => hl lp' (by simp [h']))
    set A : AD E θ₀ := (∑ r ∈ Finset.range N, boxOf (F r + lp r) * ((1 - boxOf (lp r)) * othersOf N (AD.const w) g r)) *
      AD.const wt with hA
    have hval : ∀ θ, A θ = ∑ r ∈ Finset.range N, (Real.exp (F r θ + lp r θ - (F r θ₀ + lp r θ₀)) *
        (1 - Real.exp (lp r θ - lp r θ₀))) * (wt * ((∑ s ∈ Finset.range N, g s θ₀ - g r θ₀) * w)) := by
      intro θ
      rw [hA, AD.mul_apply, ad_finset_sum, Finset.sum_mul]
      apply Finset.sum_congr rfl
      intro r _
      simp only [boxOf, othersOf, AD.mul_apply, AD.exp_apply, AD.sub_apply, AD.add_apply, AD.detach_apply, AD.one_apply,
        AD.const_apply, ad_finset_sum]
      ring
    have hd : HasFDerivAt (A : E → ℝ) (∑ r ∈ Finset.range N,
          (-(wt * w)) • ((∑ s ∈ Finset.range N, g s θ₀ - g r θ₀) • fderiv ℝ (lp r : E → ℝ) θ₀)) θ₀ := by
      have : (A : E → ℝ) = fun θ => ∑ r ∈ Finset.range N, (Real.exp (F r θ + lp r θ - (F r θ₀ + lp r θ₀)) *
        (1 - Real.exp (lp r θ - lp r θ₀))) * (wt * ((∑ s ∈ Finset.range N, g s θ₀ - g r θ₀) * w)) := funext hval
      rw [this]
      apply HasFDerivAt.fun_sum
      intro r hr
      have hr' := Finset.mem_range.1 hr
      have e1 : HasFDerivAt (fun θ => Real.exp (F r θ + lp r θ - (F r θ₀ + lp r θ₀)))
          (Real.exp (F r θ₀ + lp r θ₀ - (F r θ₀ + lp r θ₀)) • (fderiv ℝ (F r : E → ℝ) θ₀ + fderiv ℝ (lp r : E → ℝ) θ₀)) θ₀ :=
        (((hF r hr').hasFDerivAt.add (hlp r hr').hasFDerivAt).sub_const (F r θ₀ + lp r θ₀)).exp
      have e2 := (((hlp r hr').hasFDerivAt.sub_const (lp r θ₀)).exp).const_sub 1
      refine ((e1.mul e2).mul_const _).congr_fderiv ?_
      ext y
      simp
      ring
    refine ⟨?_, ?_⟩
    · rw [variates, AD.add_apply, ih1, ← hA, hval, add_zero]
      apply Finset.sum_eq_zero
      intro r _
      simp
    · rw [List.map_cons, List.sum_cons]
      exact hd.add ih2

/-- The batch average baseline keeps the score function unbiased on sequences: with the factors of
`C99_unbiased_partial`, each of which sums to one given the others (`hone`), the loss evaluates to the average cost and the
expectation of its gradient is the gradient of the expected cost.  Missing from C99: what `C99_batch_loss_partial` misses, and
probabilities that are zero. -/
theorem C99_batch_unbiased_partial (h : Steps C name n) (hn : ∀ i j, n i = n j) (hsel : ∀ i, C.sel name i = none) (k : Nat)
    (hf : NameFree name (C.plate name k).parents)
    (hw : (C.plate name k).weight = .torch (Ten.scalar (AD.const (1 / (n k : ℝ)))))
    {X : Type _} [Fintype X] (q : List (E → X → ℝ)) (hq : q ≠ [])
    (hpos : ∀ p ∈ q, ∀ x, 0 < p θ₀ x) (hdiff : ∀ p ∈ q, ∀ x, DifferentiableAt ℝ (fun θ => p θ x) θ₀)
    (hone : ∀ q₁ p q₂, q = q₁ ++ p :: q₂ → ∀ᶠ θ in nhds θ₀,
      ∑ x, (q₁.map (fun p => p θ₀ x)).prod * (p θ x * (q₂.map (fun p => p θ₀ x)).prod) = 1)
    (f : E → X → ℝ) (hfd : ∀ x, DifferentiableAt ℝ (fun θ => f θ x) θ₀)
    (c : (Fin (n k) → X) → STen (AD E θ₀)) (g : (Fin (n k) → X) → Nat → List Nat → AD E θ₀)
    (hc : ∀ ω, At C name n [] k (g ω) (c ω)) (hg : ∀ ω (r : Fin (n k)), g ω r [] = fun θ => f θ (ω r))
    (vars : (Fin (n k) → X) → List (StepVar (AD E θ₀))) (hv : ∀ ω, ∀ v ∈ vars ω, v.OK C name n k)
    (hvq : ∀ ω, List.Forall₂ (fun v p => ∀ r : Fin (n k), v.lp r = fun θ => Real.log (p θ (ω r))) (vars ω) q)
    (inv : Nat → AD E θ₀) (hinv : inv (n k - 1) = AD.const (1 / ((n k - 1 : ℕ) : ℝ))) :
    ∃ L : (Fin (n k) → X) → STen (AD E θ₀),
      (∀ ω, surrogateCost (C.hook asLong) (c ω)
        ((vars ω).map (fun v => scoreSampled (C.hook asLong) inv v.logProb (n k) name (some .batchAverage) v.tensor)) =
          .ok (.st (L ω) false)) ∧
      (∀ ω, (L ω).ten.shape = [] ∧ ((L ω).ten.get []).val = (∑ r, f θ₀ (ω r)) / (n k : ℝ)) ∧
      HasFDerivAt (fun θ => ∑ x, (q.map (fun p => p θ x)).prod * f θ x)
        (∑ ω : Fin (n k) → X, (∏ r, (q.map (fun p => p θ₀ (ω r))).prod) • fderiv ℝ ((L ω).ten.get [] : E → ℝ) θ₀) θ₀ := by
  have hP1 : ∑ x, (q.map (fun p => p θ₀ x)).prod = 1 := by
    cases q with
    | nil => exact absurd rfl hq
    | cons p q₂ =>
      have := (hone [] p q₂ rfl).self_of_nhds
      simpa using this
  have hvne : ∀ ω, vars ω ≠ [] := by
    intro ω h0
    have := (hvq ω).length_eq
    rw [h0] at this
    exact hq (List.length_eq_zero_iff.1 this.symm)
  obtain ⟨L0, h1, h2, h3⟩ := C99_unbiased_partial (asLong := asLong) h hn hsel k hf hw q hq hpos hdiff hP1 f hfd c g hc hg
    vars hv hvq inv (n k) name
  have hrun : ∀ ω, ∃ s : STen (AD E θ₀), surrogateCost (C.hook asLong) (c ω)
      ((vars ω).map (fun v => scoreSampled (C.hook asLong) inv v.logProb (n k) name (some .batchAverage) v.tensor)) =
        .ok (.st s false) ∧ s.ten.shape = [] ∧
      s.ten.get [] = variates (n k) (AD.const (1 / ((n k - 1 : ℕ) : ℝ))) (AD.const (1 / (n k : ℝ))) (fun r => g ω r [])
        (fun _ => 0) ((vars ω).map StepVar.lp) + (L0 ω).ten.get [] := by
    intro ω
    obtain ⟨s, q1, _, q3, q4⟩ := C99_batch_loss_partial (asLong := asLong) h hn hsel k hf _ hw (g ω) (c ω) (hc ω) inv (vars ω)
      (hvne ω) (hv ω)
    obtain ⟨s0, r1, _, _, r4⟩ := C99_loss_partial (asLong := asLong) h hn hsel k hf _ hw (g ω) (c ω) (hc ω) inv (n k) name
      (vars ω) (hvne ω) (hv ω)
    have hs0 : s0 = L0 ω := by
      have := r1.symm.trans (h1 ω)
      simpa using this
    refine ⟨s, q1, q3, ?_⟩
    rw [q4, hinv, ← hs0, r4]
    rfl
  choose L hL1 hL2 hL3 using hrun
  have hlog : ∀ p ∈ q, ∀ x, DifferentiableAt ℝ (fun θ => Real.log (p θ x)) θ₀ := fun p hp x =>
    (hdiff p hp x).log (hpos p hp x).ne'
  have hvar : ∀ ω, ∀ v ∈ vars ω, ∀ r : Fin (n k), DifferentiableAt ℝ (v.lp r : E → ℝ) θ₀ := by
    intro ω v hvm r
    obtain ⟨p, hp, hpe⟩ : ∃ p ∈ q, ∀ r : Fin (n k), v.lp r = fun θ => Real.log (p θ (ω r)) := by
      have := hvq ω
      clear * - this hvm
      generalize vars ω = vs at this hvm
      induction this with
      | nil => simp at hvm
      | cons a _ ih =>
        rcases List.mem_cons.1 hvm with rfl | hm
        · exact ⟨_, by simp, a⟩
        · obtain ⟨p, hp, hh⟩ := ih hm
          exact ⟨p, by simp [hp], hh⟩
    rw [hpe r]
    exact hlog p hp _
  have hvd : ∀ ω, (variates (n k) (AD.const (1 / ((n k - 1 : ℕ) : ℝ))) (AD.const (1 / (n k : ℝ))) (fun r => g ω r [])
        (fun _ => 0) ((vars ω).map StepVar.lp) : AD E θ₀) θ₀ = 0 ∧
      HasFDerivAt (fun θ => (variates (n k) (AD.const (1 / ((n k - 1 : ℕ) : ℝ))) (AD.const (1 / (n k : ℝ)))
        (fun r => g ω r []) (fun _ => 0) ((vars ω).map StepVar.lp) : AD E θ₀) θ)
        (q.map (fun p => ∑ r : Fin (n k), (-((1 / (n k : ℝ)) * (1 / ((n k - 1 : ℕ) : ℝ)))) •
          ((∑ s : Fin (n k), f θ₀ (ω s) - f θ₀ (ω r)) • fderiv ℝ (fun θ => Real.log (p θ (ω r))) θ₀))).sum θ₀ := by
    intro ω
    obtain ⟨e1, e2⟩ := variates_deriv (n k) (1 / ((n k - 1 : ℕ) : ℝ)) (1 / (n k : ℝ)) (fun r => g ω r [])
      ((vars ω).map StepVar.lp) (fun _ => 0) (fun _ _ => differentiableAt_const (0 : ℝ)) (by
        intro lp hlp r hr
        obtain ⟨v, hvm, rfl⟩ := List.mem_map.1 hlp
        exact hvar ω v hvm ⟨r, hr⟩)
    refine ⟨e1, e2.congr_fderiv ?_⟩
    rw [List.map_map]
    have := hvq ω
    have hgs : ∑ s ∈ Finset.range (n k), g ω s [] θ₀ = ∑ s : Fin (n k), f θ₀ (ω s) := by
      rw [Finset.sum_range]
      exact Finset.sum_congr rfl (fun s _ => by rw [hg])
    clear * - this hg hgs
    generalize vars ω = vs at this ⊢
    induction this with
    | nil => rfl
    | cons a _ ih =>
      rw [List.map_cons, List.sum_cons, List.map_cons, List.sum_cons, ih]
      congr 1
      rw [Function.comp_apply, Finset.sum_range]
      apply Finset.sum_congr rfl
      intro r _
      rw [a r, hgs, hg]
  have hL0d : ∀ ω, DifferentiableAt ℝ ((L0 ω).ten.get [] : E → ℝ) θ₀ := by
    intro ω
    obtain ⟨s0, r1, _, _, r4⟩ := C99_loss_partial (asLong := asLong) h hn hsel k hf _ hw (g ω) (c ω) (hc ω) inv (n k) name
      (vars ω) (hvne ω) (hv ω)
    have hs0 : s0 = L0 ω := by
      have := r1.symm.trans (h1 ω)
      simpa using this
    have hsum : ∀ r : Fin (n k), DifferentiableAt ℝ (((vars ω).map (fun v => v.lp r)).sum : E → ℝ) θ₀ := by
      intro r
      have : ∀ vs : List (StepVar (AD E θ₀)), (∀ v ∈ vs, DifferentiableAt ℝ (v.lp r : E → ℝ) θ₀) →
          DifferentiableAt ℝ ((vs.map (fun v => v.lp r)).sum : E → ℝ) θ₀ := by
        intro vs hvs
        induction vs with
        | nil => exact differentiableAt_const (0 : ℝ)
        | cons v vs ih => exact (hvs v (by simp)).add (ih (fun v' h' => hvs v' (by simp [h'])))
      exact this _ (fun v hvm => hvar ω v hvm r)
    rw [← hs0, r4]
    have : (((∑ r ∈ Finset.range (n k), Autograd.exp (((vars ω).map (fun v => v.lp r)).sum -
        Autograd.detach ((vars ω).map (fun v => v.lp r)).sum) * g ω r []) * AD.const (1 / (n k : ℝ)) : AD E θ₀) : E → ℝ) =
        fun θ => (∑ r : Fin (n k), Real.exp (((vars ω).map (fun v => v.lp r)).sum θ -
          ((vars ω).map (fun v => v.lp r)).sum θ₀) * f θ (ω r)) * (1 / (n k : ℝ)) := by
      funext θ
      rw [AD.mul_apply, ad_finset_sum, Finset.sum_range, AD.const_apply]
      congr 1
      apply Finset.sum_congr rfl
      intro r _
      rw [AD.mul_apply, AD.exp_apply, AD.sub_apply, AD.detach_apply, hg]
    rw [this]
    exact (DifferentiableAt.fun_sum (fun r _ => (((hsum r).sub_const _).exp).mul (hfd (ω r)))).mul_const _
  have hzero : ∀ p ∈ q, ∑ x, (q.map (fun p => p θ₀ x)).prod • fderiv ℝ (fun θ => Real.log (p θ x)) θ₀ = 0 := by
    intro p hp
    obtain ⟨q₁, q₂, rfl⟩ := List.append_of_mem hp
    have e1 : HasFDerivAt (fun θ => ∑ x, (q₁.map (fun p => p θ₀ x)).prod * (p θ x * (q₂.map (fun p => p θ₀ x)).prod))
        (∑ x, (q₁.map (fun p => p θ₀ x)).prod • ((q₂.map (fun p => p θ₀ x)).prod • fderiv ℝ (fun θ => p θ x) θ₀)) θ₀ := by
      apply HasFDerivAt.fun_sum
      intro x _
      exact ((hdiff p (by simp) x).hasFDerivAt.mul_const _).const_mul _
    have e2 : HasFDerivAt (fun θ => ∑ x, (q₁.map (fun p => p θ₀ x)).prod * (p θ x * (q₂.map (fun p => p θ₀ x)).prod))
        (0 : E →L[ℝ] ℝ) θ₀ := (hasFDerivAt_const (1 : ℝ) θ₀).congr_of_eventuallyEq (hone q₁ p q₂ rfl)
    rw [← e1.unique e2]
    apply Finset.sum_congr rfl
    intro x _
    rw [((hdiff p (by simp) x).hasFDerivAt.log (hpos p (by simp) x).ne').fderiv, smul_smul, smul_smul, List.map_append,
      List.map_cons, List.prod_append, List.prod_cons]
    congr 1
    have := (hpos p (by simp) x).ne'
    field_simp
  refine ⟨L, hL1, fun ω => ⟨hL2 ω, ?_⟩, ?_⟩
  · rw [← (h2 ω).2, AD.val, AD.val, hL3, AD.add_apply, (hvd ω).1, zero_add]
  · refine h3.congr_fderiv ?_
    have hsplit : ∀ ω, fderiv ℝ ((L ω).ten.get [] : E → ℝ) θ₀ =
        (q.map (fun p => ∑ r : Fin (n k), (-((1 / (n k : ℝ)) * (1 / ((n k - 1 : ℕ) : ℝ)))) •
          ((∑ s : Fin (n k), f θ₀ (ω s) - f θ₀ (ω r)) • fderiv ℝ (fun θ => Real.log (p θ (ω r))) θ₀))).sum +
        fderiv ℝ ((L0 ω).ten.get [] : E → ℝ) θ₀ := by
      intro ω
      rw [hL3]
      exact ((hvd ω).2.add (hL0d ω).hasFDerivAt).fderiv
    simp only [hsplit, smul_add, Finset.sum_add_distrib]
    rw [eq_comm, add_eq_right]
    have : ∀ q' : List (E → X → ℝ), (∀ p ∈ q', p ∈ q) → ∑ ω : Fin (n k) → X, (∏ r, (q.map (fun p => p θ₀ (ω r))).prod) •
        (q'.map (fun p => ∑ r : Fin (n k), (-((1 / (n k : ℝ)) * (1 / ((n k - 1 : ℕ) : ℝ)))) •
          ((∑ s : Fin (n k), f θ₀ (ω s) - f θ₀ (ω r)) • fderiv ℝ (fun θ => Real.log (p θ (ω r))) θ₀))).sum = 0 := by
      intro q' hq'
      induction q' with
      | nil => simp
      | cons p q' ih =>
        simp only [List.map_cons, List.sum_cons, smul_add, Finset.sum_add_distrib]
        rw [ih (fun p' h' => hq' p' (by simp [h'])), add_zero]
        simp only [Finset.smul_sum]
        rw [Finset.sum_comm]
        apply Finset.sum_eq_zero
        intro j _
        have := mean_others (fun x => (q.map (fun p => p θ₀ x)).prod) (f θ₀) (fun x => fderiv ℝ (fun θ => Real.log (p θ x)) θ₀)
          (hzero p (hq' p (by simp))) j
        simp only [smul_comm _ (-((1 / (n k : ℝ)) * (1 / ((n k - 1 : ℕ) : ℝ)))) _]
        rw [← Finset.smul_sum, this, smul_zero]
    exact this q (fun _ hp => hp)

end

namespace SeqLossCase

/-- A case for `C99_batch_loss_partial`: two bits and their cost. -/
example (ω : Fin 2 → Bool × Bool) (asLong : V → Nat) :
    ∃ s, surrogateCost (pairs.hook asLong) (row 1 (fun r θ => price θ (draw ω r)))
        ((bits ω).map (fun v => scoreSampled (pairs.hook asLong) (fun m => AD.const (1 / (m : ℝ))) v.logProb 2 "z"
          (some .batchAverage) v.tensor)) = .ok (.st s false) ∧ s.ten.shape = [] := by
  obtain ⟨s, h1, _, h3, _⟩ := C99_batch_loss_partial (asLong := asLong) pairs_steps (fun _ _ => rfl) (fun _ => rfl) 1
    (fun _ hp => absurd hp (by simp [pairs, Plate.parents])) _ rfl _ _ (row_at 1 (fun r θ => price θ (draw ω r)))
    (fun m => AD.const (1 / (m : ℝ))) (bits ω) (by simp [bits]) (bits_ok ω)
  exact ⟨s, h1, h3⟩

/-- A case for `C99_batch_unbiased_partial`: the gradient of the expected cost of two bits. -/
example (asLong : V → Nat) :
    ∃ L : (Fin 2 → Bool × Bool) → STen V,
      (∀ ω, surrogateCost (pairs.hook asLong) (row 1 (fun r θ => price θ (draw ω r)))
        ((bits ω).map (fun v => scoreSampled (pairs.hook asLong) (fun m => AD.const (1 / (m : ℝ))) v.logProb 2 "z"
          (some .batchAverage) v.tensor)) = .ok (.st (L ω) false)) ∧
      HasFDerivAt (fun θ => ∑ x, (factors.map (fun p => p θ x)).prod * price θ x)
        (∑ ω : Fin 2 → Bool × Bool, (∏ r, (factors.map (fun p => p 0 (ω r))).prod) •
          fderiv ℝ ((L ω).ten.get [] : ℝ → ℝ) 0) 0 := by
  have hbit : ∀ b, DifferentiableAt ℝ (fun θ => bit θ b) 0 := by
    intro b
    cases b
    · exact (differentiableAt_id (𝕜 := ℝ) (x := (0 : ℝ))).const_sub (1 / 2)
    · exact (differentiableAt_id (𝕜 := ℝ) (x := (0 : ℝ))).const_add (1 / 2)
  have hbit0 : ∀ b, bit 0 b = 1 / 2 := by
    intro b
    cases b <;> simp [bit]
  obtain ⟨L, h1, _, h3⟩ := C99_batch_unbiased_partial (asLong := asLong) pairs_steps (fun _ _ => rfl) (fun _ => rfl) 1
    (fun _ hp => absurd hp (by simp [pairs, Plate.parents])) rfl factors (by simp [factors])
    (by
      intro p hp x
      simp only [factors, List.mem_cons, List.not_mem_nil, or_false] at hp
      rcases hp with rfl | rfl <;> simp [hbit0])
    (by
      intro p hp x
      simp only [factors, List.mem_cons, List.not_mem_nil, or_false] at hp
      rcases hp with rfl | rfl
      · exact hbit _
      · exact hbit _)
    (by
      intro q₁ p q₂ hq
      refine Filter.Eventually.of_forall (fun θ => ?_)
      match q₁, hq with
      | [], hq =>
        simp only [factors, List.nil_append, List.cons.injEq] at hq
        obtain ⟨rfl, rfl⟩ := hq
        rw [Fintype.sum_prod_type]
        simp [hbit0]
        simp [bit]
        ring
      | [a], hq =>
        simp only [factors, List.singleton_append, List.cons.injEq] at hq
        obtain ⟨rfl, rfl, rfl⟩ := hq
        rw [Fintype.sum_prod_type]
        simp [hbit0]
        simp [bit]
        ring
      | a :: b :: q₁, hq =>
        simp [factors] at hq)
    price (fun x => (differentiableAt_id (𝕜 := ℝ) (x := (0 : ℝ))).const_add _)
    (fun ω => row 1 (fun r θ => price θ (draw ω r))) (fun ω r _ θ => price θ (draw ω r)) (fun ω => row_at 1 _)
    (fun ω r => by simp only [draw_eq]; rfl) bits bits_ok
    (fun ω => by
      refine .cons (fun r => ?_) (.cons (fun r => ?_) .nil)
      · simp only [draw_eq]
      · simp only [draw_eq])
    (fun m => AD.const (1 / (m : ℝ))) rfl
  exact ⟨L, h1, h3⟩

end SeqLossCase

end Storch
