import Verif.Lemmas.UnorderedCode

/-!
# What the code for the second leave-one-out ratios computes
-/

namespace Storch.SetLaw

variable {ι : Type _} [DecidableEq ι]

/-- The Riemann sum of the integrand of `riemannSum` for the set without `s`, divided by the factor of `s` once more. -/
noncomputable def twiceSum (b : ι → ℝ) (A ε : ℝ) (T : Finset ι) (s : ι) (N : Nat) : ℝ :=
  ∑ i ∈ Finset.range (N - 1), ((i + 1 : Nat) / N : ℝ) ^ (A - 1) *
    ((∏ t ∈ T.erase s, (1 - ((i + 1 : Nat) / N : ℝ) ^ b t + ε)) / (1 - ((i + 1 : Nat) / N : ℝ) ^ b s + ε))

/-- The second leave-one-out ratio of the code for the row `s` outside the diagonal. -/
noncomputable def codeRatio (p : ι → ℝ) (a ε : ℝ) (N : Nat) (S : Finset ι) (s : ι) : ℝ :=
  twiceSum (fun i => Real.exp a * p i) (Real.exp a * (1 - ∑ i ∈ S, p i + ε)) ε S s N /
    riemannSum (fun i => Real.exp a * p i) (Real.exp a * (1 - ∑ i ∈ S, p i + ε)) ε (S.erase s) N

/-- The baseline of the code for the sample `s`. -/
noncomputable def codeBaseline (p : ι → ℝ) (a ε : ℝ) (N : Nat) (S : Finset ι) (f : ι → ℝ) (s : ι) : ℝ :=
  p s * f s + ∑ t ∈ S.erase s, p t * codeRatio p a ε N S t * f t

end Storch.SetLaw

namespace Storch.Decode

open Gumbel SetLaw

section
variable {ι : Type _} [DecidableEq ι] (lp : ι → ℝ)

theorem exp_logPWithout {a : ℝ} {N : Nat} (hN : 2 ≤ N) {S : List ι} (hS : S.Nodup)
    (h1 : ∑ i ∈ S.toFinset, Real.exp (lp i) ≤ 1)
    (hg : ∀ s ∈ S, Real.exp a * Real.exp (lp s) * Real.log N < Real.exp 10) {s : ι} (hs : s ∈ S) :
    Real.exp (logPWithout a N (S.map lp) (lp s)) = riemannSum (fun i => Real.exp a * Real.exp (lp i))
      (Real.exp a * (1 - ∑ i ∈ S.toFinset, Real.exp (lp i) + 1e-6)) 1e-6 (S.toFinset.erase s) N := by
  have hne : S ≠ [] := List.ne_nil_of_mem hs
  have hb : ∀ i : ι, 0 < Real.exp a * Real.exp (lp i) := fun i => by positivity
  rw [logPWithout, exp_lse_points _ hN, riemannSum]
  refine Finset.sum_congr rfl (fun i hi => ?_)
  have hi' := Finset.mem_range.1 hi
  have hm := point_mem hi'
  rw [Real.exp_sub, exp_integrand lp hS hne h1 hm (fun t ht => below (hg t ht) hi'), exp_survTerm hm (below (hg s hs) hi'),
    mul_div_assoc]
  congr 1
  rw [← Finset.mul_prod_erase S.toFinset _ (by simpa using hs), mul_div_assoc, mul_comm, div_mul_cancel₀]
  exact (factor_pos (hb s) (by norm_num) hm).ne'

theorem exp_logPTwice {a : ℝ} {N : Nat} (hN : 2 ≤ N) {S : List ι} (hS : S.Nodup)
    (h1 : ∑ i ∈ S.toFinset, Real.exp (lp i) ≤ 1)
    (hg : ∀ s ∈ S, Real.exp a * Real.exp (lp s) * Real.log N < Real.exp 10) {s : ι} (hs : s ∈ S) :
    Real.exp (logsumexpL ((intPoints N).map (fun v => integrandS a (S.map lp) v - survTerm a (lp s) v -
      survTerm a (lp s) v * 1))) = twiceSum (fun i => Real.exp a * Real.exp (lp i))
      (Real.exp a * (1 - ∑ i ∈ S.toFinset, Real.exp (lp i) + 1e-6)) 1e-6 S.toFinset s N := by
  have hne : S ≠ [] := List.ne_nil_of_mem hs
  have hb : ∀ i : ι, 0 < Real.exp a * Real.exp (lp i) := fun i => by positivity
  rw [exp_lse_points _ hN, twiceSum]
  refine Finset.sum_congr rfl (fun i hi => ?_)
  have hi' := Finset.mem_range.1 hi
  have hm := point_mem hi'
  rw [mul_one, Real.exp_sub, Real.exp_sub, exp_integrand lp hS hne h1 hm (fun t ht => below (hg t ht) hi'),
    exp_survTerm hm (below (hg s hs) hi'), mul_div_assoc, mul_div_assoc]
  congr 1
  congr 1
  rw [← Finset.mul_prod_erase S.toFinset _ (by simpa using hs), mul_comm, mul_div_assoc, div_self, mul_one]
  exact (factor_pos (hb s) (by norm_num) hm).ne'

/-- The entries of `log_snd_leave_one_out`. -/
theorem logSnd_entry (a : ℝ) (N : Nat) (lps : List ℝ) {r c : Nat} (hr : r < lps.length) (hc : c < lps.length) :
    ((logSnd a N lps).getD r []).getD c 0 = logsumexpL ((intPoints N).map (fun v =>
      integrandS a lps v - survTerm a lps[r] v - survTerm a lps[r] v * (if r = c then 0 else 1))) - logPWithout a N lps lps[r] := by
  have h1 : (logSnd a N lps)[r]? = some ((List.range lps.length).map (fun c =>
    logsumexpL ((intPoints N).map (fun v =>
      integrandS a lps v - survTerm a lps[r] v - survTerm a lps[r] v * (if r = c then 0 else 1))) -
        logPWithout a N lps lps[r])) := by
    rw [logSnd, List.getElem?_map, List.getElem?_zipIdx, List.getElem?_eq_getElem hr]
    simp
  simp only [List.getD, h1, Option.getD_some, List.getElem?_map, List.getElem?_range hc, Option.map_some]

theorem logSnd_length (a : ℝ) (N : Nat) (lps : List ℝ) : (logSnd a N lps).length = lps.length := by
  simp [logSnd]

/-- What the baseline is made of. -/
theorem exp_logSnd {a : ℝ} {N : Nat} (hN : 2 ≤ N) {S : List ι} (hS : S.Nodup)
    (h1 : ∑ i ∈ S.toFinset, Real.exp (lp i) ≤ 1)
    (hg : ∀ s ∈ S, Real.exp a * Real.exp (lp s) * Real.log N < Real.exp 10) {r c : Nat} (hr : r < S.length) (hc : c < S.length) :
    Real.exp (((logSnd a N (S.map lp)).getD r []).getD c 0) =
      if r = c then 1 else codeRatio (fun i => Real.exp (lp i)) a 1e-6 N S.toFinset S[r] := by
  have hs : S[r] ∈ S := List.getElem_mem hr
  rw [logSnd_entry a N (S.map lp) (by simpa using hr) (by simpa using hc), Real.exp_sub]
  simp only [List.getElem_map]
  rw [exp_logPWithout lp hN hS h1 hg hs]
  have hb : ∀ i : ι, 0 < Real.exp a * Real.exp (lp i) := fun i => by positivity
  by_cases h : r = c
  · simp only [if_pos h, mul_zero, sub_zero]
    have := exp_logPWithout lp hN hS h1 hg hs
    rw [logPWithout] at this
    rw [this, div_self (riemannSum_pos hb _ (by norm_num) _ hN).ne']
  · simp only [if_neg h]
    rw [exp_logPTwice lp hN hS h1 hg hs, codeRatio]

theorem sum_fin_list {S : List ι} (hS : S.Nodup) (g : ι → ℝ) : ∑ r : Fin S.length, g S[r] = ∑ s ∈ S.toFinset, g s := by
  rw [List.sum_toFinset _ hS, ← List.sum_ofFn]
  congr 1
  apply List.ext_getElem (by simp)
  intro i _ _
  simp

/-- The sum over the rows. -/
theorem baseline_eq {a : ℝ} {N : Nat} (hN : 2 ≤ N) {S : List ι} (hS : S.Nodup)
    (h1 : ∑ i ∈ S.toFinset, Real.exp (lp i) ≤ 1)
    (hg : ∀ s ∈ S, Real.exp a * Real.exp (lp s) * Real.log N < Real.exp 10) (f : ι → ℝ) {c : Nat} (hc : c < S.length) :
    ∑ r : Fin S.length, Real.exp (lp S[r] + ((logSnd a N (S.map lp)).getD r []).getD c 0) * f S[r] =
      codeBaseline (fun i => Real.exp (lp i)) a 1e-6 N S.toFinset f S[c] := by
  have key : ∀ r : Fin S.length, Real.exp (lp S[r] + ((logSnd a N (S.map lp)).getD r []).getD c 0) * f S[r] =
      if S[r] = S[c] then Real.exp (lp S[c]) * f S[c]
      else Real.exp (lp S[r]) * codeRatio (fun i => Real.exp (lp i)) a 1e-6 N S.toFinset S[r] * f S[r] := by
    intro r
    have hinj : S[r] = S[c] ↔ (r : Nat) = c := hS.getElem_inj_iff
    rw [Real.exp_add, exp_logSnd lp hN hS h1 hg r.2 hc]
    by_cases h : (r : Nat) = c
    · rw [if_pos h, if_pos (hinj.2 h), mul_one, hinj.2 h]
    · rw [if_neg h, if_neg (fun e => h (hinj.1 e))]
      rfl
  rw [Finset.sum_congr rfl (fun r _ => key r)]
  rw [sum_fin_list hS (fun s => if s = S[c] then Real.exp (lp S[c]) * f S[c]
      else Real.exp (lp s) * codeRatio (fun i => Real.exp (lp i)) a 1e-6 N S.toFinset s * f s), codeBaseline,
    ← Finset.add_sum_erase _ _ (by simp : S[c] ∈ S.toFinset), if_pos rfl]
  congr 1
  refine Finset.sum_congr rfl (fun t ht => ?_)
  rw [if_neg (Finset.ne_of_mem_erase ht)]

end
end Storch.Decode
