import Verif.Model.UnorderedSet
import Verif.Lemmas.UnorderedLemmas
import Verif.Props.GumbelProps

/-!
# What the code for the weights of unordered sets computes
-/

namespace Storch.Decode

open Gumbel SetLaw

theorem exp_survTerm {a l v : ℝ} (hv : v ∈ Set.Ioo (0 : ℝ) 1) (h : Real.exp a * Real.exp l * -Real.log v < Real.exp 10) :
    Real.exp (survTerm a l v) = 1 - v ^ (Real.exp a * Real.exp l) + 1e-6 := by
  have hlog : 0 < -Real.log v := by have := Real.log_neg hv.1 hv.2; linarith
  have hy : Real.exp (gBound a l v) = Real.exp a * Real.exp l * -Real.log v := by
    rw [gBound, Real.exp_add, Real.exp_log hlog, Real.exp_add]; ring
  have hg : ¬ gBound a l v ≥ 10 := by
    rw [ge_iff_le, not_le, ← Real.exp_lt_exp, hy]; exact h
  have hpos : 0 < Real.exp (gBound a l v) := Real.exp_pos _
  simp only [survTerm, if_neg hg, C49_log1mexp, abs_of_pos hpos]
  have he : Real.exp (-Real.exp (gBound a l v)) = v ^ (Real.exp a * Real.exp l) := by
    rw [hy, Real.rpow_def_of_pos hv.1]; congr 1; ring
  rw [he, Real.exp_log]
  exact factor_pos (by positivity) (by norm_num) hv

theorem exp_logsumexpL {l : List ℝ} (h : l ≠ []) : Real.exp (logsumexpL l) = (l.map Real.exp).sum := by
  rw [logsumexpL, Real.exp_log]
  refine List.sum_pos _ ?_ (by simpa using h)
  intro x hx
  obtain ⟨y, _, rfl⟩ := List.mem_map.1 hx
  exact Real.exp_pos y

theorem exp_list_sum (l : List ℝ) : Real.exp l.sum = (l.map Real.exp).prod := by
  induction l with
  | nil => simp
  | cons a l ih => rw [List.sum_cons, Real.exp_add, ih, List.map_cons, List.prod_cons]

/-- Nothing needs the series at the points of the integration. -/
theorem below {a l : ℝ} {N i : Nat} (h : Real.exp a * Real.exp l * Real.log N < Real.exp 10) (hi : i < N - 1) :
    Real.exp a * Real.exp l * -Real.log ((i + 1 : Nat) / N : ℝ) < Real.exp 10 := by
  refine lt_of_le_of_lt (mul_le_mul_of_nonneg_left ?_ (by positivity)) h
  have hN : (0 : ℝ) < N := Nat.cast_pos.2 (by omega)
  have h1 : (1 : ℝ) ≤ (i + 1 : Nat) := by exact_mod_cast Nat.le_add_left 1 i
  rw [Real.log_div (by positivity) hN.ne']
  have := Real.log_nonneg h1
  linarith

section
variable {ι : Type _} [DecidableEq ι] (lp : ι → ℝ)

theorem exp_integrand {a : ℝ} {S : List ι} (hS : S.Nodup) (hne : S ≠ []) (h1 : ∑ i ∈ S.toFinset, Real.exp (lp i) ≤ 1) {v : ℝ}
    (hv : v ∈ Set.Ioo (0 : ℝ) 1) (h : ∀ s ∈ S, Real.exp a * Real.exp (lp s) * -Real.log v < Real.exp 10) :
    Real.exp (integrandS a (S.map lp) v) = v ^ (Real.exp a * (1 - ∑ i ∈ S.toFinset, Real.exp (lp i) + 1e-6) - 1) *
      ∏ t ∈ S.toFinset, (1 - v ^ (Real.exp a * Real.exp (lp t)) + 1e-6) := by
  have hpos : 0 < ∑ i ∈ S.toFinset, Real.exp (lp i) :=
    Finset.sum_pos (fun i _ => Real.exp_pos _) (by simpa [Finset.nonempty_iff_ne_empty] using hne)
  have hsum : (((S.map lp)).map Real.exp).sum = ∑ i ∈ S.toFinset, Real.exp (lp i) := by
    rw [List.map_map, List.sum_toFinset _ hS]; rfl
  have hphi : log1mexp (logsumexpL (S.map lp)) = Real.log (1 - ∑ i ∈ S.toFinset, Real.exp (lp i) + 1e-6) := by
    rw [C49_log1mexp, logsumexpL, hsum, abs_of_nonpos (Real.log_nonpos hpos.le h1), neg_neg, Real.exp_log hpos]
  have hq : 0 < 1 - ∑ i ∈ S.toFinset, Real.exp (lp i) + 1e-6 := by
    have : (0 : ℝ) < 1e-6 := by norm_num
    linarith
  rw [integrandS, Real.exp_add, exp_list_sum, hphi, expm1, Real.exp_add, Real.exp_log hq, mul_comm]
  congr 1
  · rw [Real.rpow_def_of_pos hv.1, mul_comm]
  · rw [List.map_map, List.map_map, ← List.prod_toFinset _ hS]
    refine Finset.prod_congr rfl (fun t ht => ?_)
    exact exp_survTerm hv (h t (by simpa using ht))

omit [DecidableEq ι] in
theorem sum_range_list (n : Nat) (g : Nat → ℝ) : ((List.range n).map g).sum = ∑ i ∈ Finset.range n, g i := by
  induction n with
  | zero => simp
  | succ n ih => rw [List.range_succ, List.map_append, List.sum_append, ih, Finset.sum_range_succ]; simp

omit [DecidableEq ι] in
theorem exp_lse_points (g : ℝ → ℝ) {N : Nat} (hN : 2 ≤ N) :
    Real.exp (logsumexpL ((intPoints N).map g)) = ∑ i ∈ Finset.range (N - 1), Real.exp (g ((i + 1 : Nat) / N)) := by
  rw [exp_logsumexpL, intPoints, List.map_map, List.map_map, sum_range_list]
  · refine Finset.sum_congr rfl (fun i _ => ?_)
    simp
  · intro h
    have := congrArg List.length h
    simp [intPoints] at this
    omega

/-- What the weights are, when the series is not used at any point. -/
theorem weightUnordered_eq {a : ℝ} {N : Nat} (hN : 2 ≤ N) {S : List ι} (hS : S.Nodup)
    (h1 : ∑ i ∈ S.toFinset, Real.exp (lp i) ≤ 1)
    (hg : ∀ s ∈ S, Real.exp a * Real.exp (lp s) * Real.log N < Real.exp 10) {p : APlate ℝ} (hp : p.logProbs = S.map lp) :
    weightUnordered a N p = .ok (some (S.map (approxWeight (fun i => Real.exp (lp i)) a 1e-6 N S.toFinset))) := by
  rw [weightUnordered, if_neg (by omega), if_neg (by omega), hp, List.map_map]
  congr 2
  refine List.map_congr_left (fun s hs => ?_)
  have hne : S ≠ [] := List.ne_nil_of_mem hs
  have hb : ∀ i : ι, 0 < Real.exp a * Real.exp (lp i) := fun i => by positivity
  have hmain : Real.exp (logPS a N (S.map lp)) = riemannSum (fun i => Real.exp a * Real.exp (lp i))
      (Real.exp a * (1 - ∑ i ∈ S.toFinset, Real.exp (lp i) + 1e-6)) 1e-6 S.toFinset N := by
    rw [logPS, exp_lse_points _ hN, riemannSum]
    refine Finset.sum_congr rfl (fun i hi => ?_)
    have hi' := Finset.mem_range.1 hi
    exact exp_integrand lp hS hne h1 (point_mem hi') (fun t ht => below (hg t ht) hi')
  have hout : Real.exp (logPWithout a N (S.map lp) (lp s)) = riemannSum (fun i => Real.exp a * Real.exp (lp i))
      (Real.exp a * (1 - ∑ i ∈ S.toFinset, Real.exp (lp i) + 1e-6)) 1e-6 (S.toFinset.erase s) N := by
    rw [logPWithout, exp_lse_points _ hN, riemannSum]
    refine Finset.sum_congr rfl (fun i hi => ?_)
    have hi' := Finset.mem_range.1 hi
    have hm := point_mem hi'
    rw [Real.exp_sub, exp_integrand lp hS hne h1 hm (fun t ht => below (hg t ht) hi'), exp_survTerm hm (below (hg s hs) hi'),
      mul_div_assoc]
    congr 1
    rw [← Finset.mul_prod_erase S.toFinset _ (by simpa using hs), mul_div_assoc, mul_comm, div_mul_cancel₀]
    exact (factor_pos (hb s) (by norm_num) hm).ne'
  rw [Function.comp, Real.exp_add, Real.exp_sub, hmain, hout, approxWeight]
  ring

end
end Storch.Decode
