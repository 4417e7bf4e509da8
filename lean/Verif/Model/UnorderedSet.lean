import Verif.Model.Decode
import Verif.Model.Gumbel

/-!
# Weights of unordered sets (storch/sampling/unordered_set.py:28-110)

One row of the plates outside the decoder's own plate; real numbers, no rounding, so that the logarithms of the
probabilities are finite.  `a` is `self.a`, `N` is `self.num_int_points`, `lps` are the detached `plate.log_probs`
(unordered_set.py:36).
-/

namespace Storch.Decode

open Gumbel

/-- `logsumexp` over a nonempty dimension.  Used at unordered_set.py:69, 85, 87, 105. -/
noncomputable def logsumexpL (l : List ℝ) : ℝ := Real.log ((l.map Real.exp).sum)

/-- `v` (unordered_set.py:41-44): `torch.arange(1, N) / N`. -/
noncomputable def intPoints (N : Nat) : List ℝ := (List.range (N - 1)).map (fun i : Nat => ((i : ℝ) + 1) / N)

/-- `g_bound` (unordered_set.py:51-55) for one sample and one point. -/
noncomputable def gBound (a lp v : ℝ) : ℝ := lp + a + Real.log (-Real.log v)

/-- `terms` (unordered_set.py:60-64) for one sample and one point. -/
noncomputable def survTerm (a lp v : ℝ) : ℝ :=
  let g := gBound a lp v
  let y := Real.exp g
  if g ≥ 10 then -g - y / 2 + y ^ 2 / 24 - y ^ 4 / 2880 else log1mexp y

/-- `integrand` (unordered_set.py:68-77) at one point. -/
noncomputable def integrandS (a : ℝ) (lps : List ℝ) (v : ℝ) : ℝ :=
  (lps.map (fun l => survTerm a l v)).sum + expm1 (a + log1mexp (logsumexpL lps)) * Real.log v

/-- `log_p_S` (unordered_set.py:85). -/
noncomputable def logPS (a : ℝ) (N : Nat) (lps : List ℝ) : ℝ :=
  logsumexpL ((intPoints N).map (integrandS a lps))

/-- `log_p_S_without_s` (unordered_set.py:82, 87) for the sample with the log-probability `l`. -/
noncomputable def logPWithout (a : ℝ) (N : Nat) (lps : List ℝ) (l : ℝ) : ℝ :=
  logsumexpL ((intPoints N).map (fun v => integrandS a lps v - survTerm a l v))

/-- The value of `UnorderedSet.weighting_function` (unordered_set.py:28-110): one weight for each sample.  Without a point
(`N = 1`) the weights are not-a-number (`none`); `torch.arange(1, 0)` raises. -/
noncomputable def weightUnordered (a : ℝ) (N : Nat) (p : APlate ℝ) : Except Err (Option (List ℝ)) :=
  if N = 0 then .error .torch
  else if N = 1 then .ok none
  else .ok (some (p.logProbs.map (fun l =>
    Real.exp (logPWithout a N p.logProbs l - logPS a N p.logProbs + l))))

/-- `plate.log_snd_leave_one_out` (unordered_set.py:96-107): the row is the plate dimension, the column the event dimension
of `skip_diag`.  `terms[..., None, :]` has the plate dimension of the row, hence the term of the row's sample is subtracted
in every column. -/
noncomputable def logSnd (a : ℝ) (N : Nat) (lps : List ℝ) : List (List ℝ) :=
  lps.zipIdx.map (fun l => (List.range lps.length).map (fun c =>
    logsumexpL ((intPoints N).map (fun v =>
      integrandS a lps v - survTerm a l.1 v - survTerm a l.1 v * (if l.2 = c then 0 else 1))) - logPWithout a N lps l.1))

end Storch.Decode
