import Mathlib.Algebra.BigOperators.Ring.Finset
import Mathlib.Data.Finset.Powerset
import Mathlib.Analysis.SpecialFunctions.Integrals.Basic
import Mathlib.Tactic.FieldSimp
import Mathlib.Tactic.Linarith
import Mathlib.Tactic.Ring

/-!
# Drawing a set without replacement
-/

namespace Storch.SetLaw

variable {ι : Type _} [DecidableEq ι]

/-- The probability that `n` draws without replacement from `D`, with probabilities proportional to `p`, yield exactly the
elements of `T`. -/
noncomputable def drawLaw (p : ι → ℝ) : Nat → Finset ι → Finset ι → ℝ
  | 0, _, T => if T = ∅ then 1 else 0
  | n + 1, D, T => ∑ t ∈ D ∩ T, p t / (∑ i ∈ D, p i) * drawLaw p n (D.erase t) (T.erase t)

/-- A pair of a set with `n + 1` elements and one of them is an element and a set of `n` others. -/
theorem sum_powersetCard_succ (D : Finset ι) (n : Nat) (F : ι → Finset ι → ℝ) :
    ∑ T ∈ D.powersetCard (n + 1), ∑ t ∈ T, F t (T.erase t) = ∑ t ∈ D, ∑ T ∈ (D.erase t).powersetCard n, F t T := by
  rw [Finset.sum_sigma', Finset.sum_sigma']
  refine Finset.sum_bij' (fun x _ => ⟨x.2, x.1.erase x.2⟩) (fun x _ => ⟨insert x.1 x.2, x.1⟩) ?_ ?_ ?_ ?_ ?_
  · rintro ⟨T, t⟩ h
    simp only [Finset.mem_sigma, Finset.mem_powersetCard] at h ⊢
    obtain ⟨⟨h1, h2⟩, h3⟩ := h
    exact ⟨h1 h3, Finset.erase_subset_erase _ h1, by rw [Finset.card_erase_of_mem h3, h2]; rfl⟩
  · rintro ⟨t, T⟩ h
    simp only [Finset.mem_sigma, Finset.mem_powersetCard] at h ⊢
    obtain ⟨h1, h2, h3⟩ := h
    have hn : t ∉ T := fun hm => Finset.notMem_erase t D (h2 hm)
    refine ⟨⟨Finset.insert_subset h1 (h2.trans (Finset.erase_subset _ _)), ?_⟩, Finset.mem_insert_self _ _⟩
    rw [Finset.card_insert_of_notMem hn, h3]
  · rintro ⟨T, t⟩ h
    simp only [Finset.mem_sigma] at h
    simp [Finset.insert_erase h.2]
  · rintro ⟨t, T⟩ h
    simp only [Finset.mem_sigma, Finset.mem_powersetCard] at h
    have hn : t ∉ T := fun hm => Finset.notMem_erase t D (h.2.1 hm)
    simp [Finset.erase_insert hn]
  · rintro ⟨T, t⟩ _
    rfl

/-- Draws without replacement yield some set. -/
theorem drawLaw_total {p : ι → ℝ} (hp : ∀ i, 0 < p i) : ∀ (n : Nat) (D : Finset ι), n ≤ D.card →
    ∑ T ∈ D.powersetCard n, drawLaw p n D T = 1 := by
  intro n
  induction n with
  | zero => intro D _; simp [drawLaw]
  | succ n ih =>
    intro D hD
    have hne : D.Nonempty := Finset.card_pos.1 (by omega)
    have hP : (∑ i ∈ D, p i) ≠ 0 := (Finset.sum_pos (fun i _ => hp i) hne).ne'
    have h1 : ∑ T ∈ D.powersetCard (n + 1), drawLaw p (n + 1) D T =
        ∑ T ∈ D.powersetCard (n + 1), ∑ t ∈ T, p t / (∑ i ∈ D, p i) * drawLaw p n (D.erase t) (T.erase t) := by
      refine Finset.sum_congr rfl (fun T hT => ?_)
      rw [drawLaw, Finset.inter_eq_right.2 (Finset.mem_powersetCard.1 hT).1]
    rw [h1, sum_powersetCard_succ D n (fun t T => p t / (∑ i ∈ D, p i) * drawLaw p n (D.erase t) T)]
    have h2 : ∀ t ∈ D, ∑ T ∈ (D.erase t).powersetCard n, p t / (∑ i ∈ D, p i) * drawLaw p n (D.erase t) T =
        p t / ∑ i ∈ D, p i := by
      intro t ht
      rw [← Finset.mul_sum, ih _ (by rw [Finset.card_erase_of_mem ht]; omega), mul_one]
    rw [Finset.sum_congr rfl h2, ← Finset.sum_div, div_self hP]

theorem drawLaw_pos {p : ι → ℝ} (hp : ∀ i, 0 < p i) : ∀ (n : Nat) (D T : Finset ι), T ⊆ D → T.card = n →
    0 < drawLaw p n D T := by
  intro n
  induction n with
  | zero => intro D T _ hT; simp [drawLaw, Finset.card_eq_zero.1 hT]
  | succ n ih =>
    intro D T hD hT
    rw [drawLaw, Finset.inter_eq_right.2 hD]
    have hne : T.Nonempty := Finset.card_pos.1 (by omega)
    refine Finset.sum_pos (fun t ht => ?_) hne
    refine mul_pos (div_pos (hp t) (Finset.sum_pos (fun i _ => hp i) ⟨t, hD ht⟩)) ?_
    exact ih _ _ (Finset.erase_subset_erase _ hD) (by rw [Finset.card_erase_of_mem ht, hT]; rfl)

/-- The weights of the samples of a set sum to one. -/
theorem ratio_sum {p : ι → ℝ} (hp : ∀ i, 0 < p i) {D T : Finset ι} (hD : T ⊆ D) (h1 : ∑ i ∈ D, p i = 1) (hT : T.Nonempty) :
    ∑ s ∈ T, p s * drawLaw p (T.card - 1) (D.erase s) (T.erase s) / drawLaw p T.card D T = 1 := by
  have hc : T.card = (T.card - 1) + 1 := by have := Finset.card_pos.2 hT; omega
  have hpos := drawLaw_pos hp T.card D T hD rfl
  rw [← Finset.sum_div, div_eq_one_iff_eq hpos.ne']
  conv_rhs => rw [hc, drawLaw, Finset.inter_eq_right.2 hD, h1]
  simp

/-- The weighted sum of a cost has the expected cost as its expectation over the sets. -/
theorem ratio_expectation {p : ι → ℝ} (hp : ∀ i, 0 < p i) {D : Finset ι} {k : Nat} (hk : 1 ≤ k) (hkD : k ≤ D.card)
    (f : ι → ℝ) : ∑ T ∈ D.powersetCard k, drawLaw p k D T *
      ∑ s ∈ T, p s * drawLaw p (k - 1) (D.erase s) (T.erase s) / drawLaw p k D T * f s = ∑ s ∈ D, p s * f s := by
  obtain ⟨n, rfl⟩ : ∃ n, k = n + 1 := ⟨k - 1, by omega⟩
  rw [Nat.add_sub_cancel]
  have h1 : ∀ T ∈ D.powersetCard (n + 1), drawLaw p (n + 1) D T *
      (∑ s ∈ T, p s * drawLaw p n (D.erase s) (T.erase s) / drawLaw p (n + 1) D T * f s) =
      ∑ s ∈ T, p s * f s * drawLaw p n (D.erase s) (T.erase s) := by
    intro T hT
    obtain ⟨hs, hc⟩ := Finset.mem_powersetCard.1 hT
    have := (drawLaw_pos hp (n + 1) D T hs hc).ne'
    rw [Finset.mul_sum]
    refine Finset.sum_congr rfl (fun s _ => ?_)
    field_simp
  rw [Finset.sum_congr rfl h1, sum_powersetCard_succ D n (fun s T => p s * f s * drawLaw p n (D.erase s) T)]
  refine Finset.sum_congr rfl (fun s hs => ?_)
  rw [← Finset.mul_sum, drawLaw_total hp n _ (by rw [Finset.card_erase_of_mem hs]; omega), mul_one]

/-! ### The integral -/

/-- The integral behind the probability of a set: `A` is the weight of the elements outside of it, `b` the weights of its
elements. -/
noncomputable def setInt (b : ι → ℝ) (A : ℝ) (T : Finset ι) : ℝ := ∫ v in (0 : ℝ)..1, v ^ (A - 1) * ∏ t ∈ T, (1 - v ^ b t)

omit [DecidableEq ι] in
theorem setInt_integrable {b : ι → ℝ} (hb : ∀ t, 0 < b t) {A : ℝ} (hA : 0 < A) (T : Finset ι) :
    IntervalIntegrable (fun v : ℝ => v ^ (A - 1) * ∏ t ∈ T, (1 - v ^ b t)) MeasureTheory.volume 0 1 := by
  refine (intervalIntegral.intervalIntegrable_rpow' (by linarith)).mul_continuousOn ?_
  refine continuousOn_finsetProd T (fun t _ => ?_)
  exact continuousOn_const.sub (continuousOn_id.rpow_const (fun x _ => Or.inr (hb t).le))

omit [DecidableEq ι] in
theorem setInt_empty (b : ι → ℝ) {A : ℝ} (hA : 0 < A) : setInt b A ∅ = 1 / A := by
  simp only [setInt, Finset.prod_empty, mul_one]
  rw [integral_rpow (Or.inl (by linarith))]
  simp [Real.zero_rpow hA.ne']

theorem setInt_insert {b : ι → ℝ} (hb : ∀ t, 0 < b t) {A : ℝ} (hA : 0 < A) {T : Finset ι} {t : ι} (ht : t ∉ T) :
    setInt b A (insert t T) = setInt b A T - setInt b (A + b t) T := by
  rw [setInt, setInt, setInt, ← intervalIntegral.integral_sub (setInt_integrable hb hA T)
    (setInt_integrable hb (by have := hb t; linarith) T)]
  refine intervalIntegral.integral_congr_ae (Filter.Eventually.of_forall (fun v hv => ?_))
  rw [Set.uIoc_of_le zero_le_one] at hv
  rw [Finset.prod_insert ht]
  have : v ^ (A + b t - 1) = v ^ (A - 1) * v ^ b t := by rw [← Real.rpow_add hv.1]; congr 1; ring
  rw [this]; ring

/-- The recursion of the integral over the first draw. -/
theorem setInt_rec {b : ι → ℝ} (hb : ∀ t, 0 < b t) (T : Finset ι) : ∀ {A : ℝ}, 0 < A →
    (A + ∑ t ∈ T, b t) * setInt b A T = ∑ t ∈ T, b t * setInt b A (T.erase t) + if T = ∅ then 1 else 0 := by
  induction T using Finset.induction_on with
  | empty => intro A hA; rw [setInt_empty b hA]; simp [hA.ne']
  | insert t T ht ih =>
    intro A hA
    have hA' : 0 < A + b t := by have := hb t; linarith
    have h1 : ∀ s ∈ T, b s * setInt b A ((insert t T).erase s) =
        b s * setInt b A (T.erase s) - b s * setInt b (A + b t) (T.erase s) := by
      intro s hs
      have hne : s ≠ t := fun h => ht (h ▸ hs)
      rw [Finset.erase_insert_of_ne hne.symm, setInt_insert hb hA (fun h => ht (Finset.mem_of_mem_erase h))]
      ring
    rw [Finset.sum_insert ht, Finset.sum_insert ht, Finset.erase_insert ht, Finset.sum_congr rfl h1, Finset.sum_sub_distrib,
      setInt_insert hb hA ht, if_neg (Finset.insert_ne_empty _ _)]
    have e1 := ih hA
    have e2 := ih hA'
    linear_combination e1 - e2

/-- The probability of a set that is not everything, as an integral; `c` is any positive scale. -/
theorem drawLaw_eq {p : ι → ℝ} (hp : ∀ i, 0 < p i) {c : ℝ} (hc : 0 < c) : ∀ (n : Nat) (D T : Finset ι), T ⊆ D → T.card = n →
    0 < ∑ i ∈ D \ T, p i →
    drawLaw p n D T = c * (∑ i ∈ D \ T, p i) * setInt (fun i => c * p i) (c * ∑ i ∈ D \ T, p i) T := by
  intro n
  induction n with
  | zero =>
    intro D T _ hT hA
    have := Finset.card_eq_zero.1 hT
    subst this
    rw [setInt_empty _ (mul_pos hc hA)]
    simp only [drawLaw, if_true]
    rw [mul_one_div, div_self (mul_pos hc hA).ne']
  | succ n ih =>
    intro D T hD hT hA
    have hb : ∀ i, 0 < c * p i := fun i => mul_pos hc (hp i)
    have hne : T ≠ ∅ := by rintro rfl; simp at hT
    have hsplit : ∑ i ∈ D \ T, p i + ∑ i ∈ T, p i = ∑ i ∈ D, p i := Finset.sum_sdiff hD
    have hP : 0 < ∑ i ∈ D, p i := by
      have : 0 ≤ ∑ i ∈ T, p i := Finset.sum_nonneg (fun i _ => (hp i).le)
      linarith
    rw [drawLaw, Finset.inter_eq_right.2 hD]
    have h1 : ∀ t ∈ T, p t / (∑ i ∈ D, p i) * drawLaw p n (D.erase t) (T.erase t) =
        (∑ i ∈ D \ T, p i) / (∑ i ∈ D, p i) *
          ((c * p t) * setInt (fun i => c * p i) (c * ∑ i ∈ D \ T, p i) (T.erase t)) := by
      intro t ht
      have hsd : D.erase t \ T.erase t = D \ T := by
        ext i
        simp only [Finset.mem_sdiff, Finset.mem_erase, not_and]
        constructor
        · rintro ⟨⟨a, b⟩, d⟩; exact ⟨b, d a⟩
        · rintro ⟨a, b⟩; exact ⟨⟨fun h => b (h ▸ ht), a⟩, fun _ => b⟩
      rw [ih _ _ (Finset.erase_subset_erase _ hD) (by rw [Finset.card_erase_of_mem ht, hT]; rfl) (by rw [hsd]; exact hA), hsd]
      ring
    rw [Finset.sum_congr rfl h1, ← Finset.mul_sum]
    have h2 := setInt_rec hb T (mul_pos hc hA)
    rw [if_neg hne, add_zero] at h2
    rw [← h2, ← Finset.mul_sum, ← mul_add, hsplit]
    field_simp

omit [DecidableEq ι] in
theorem setInt_pos {b : ι → ℝ} (hb : ∀ t, 0 < b t) {A : ℝ} (hA : 0 < A) (T : Finset ι) : 0 < setInt b A T := by
  rw [setInt]
  refine intervalIntegral.intervalIntegral_pos_of_pos_on (setInt_integrable hb hA T) (fun v hv => ?_) zero_lt_one
  refine mul_pos (Real.rpow_pos_of_pos hv.1 _) (Finset.prod_pos (fun t _ => ?_))
  have := Real.rpow_lt_one hv.1.le hv.2 (hb t)
  linarith

end Storch.SetLaw
