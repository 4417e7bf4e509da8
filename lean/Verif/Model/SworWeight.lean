import Verif.Model.Decode
import Verif.Model.Gumbel

/-!
# Importance weights of sampling without replacement (storch/sampling/swor.py:18, 185-207)

One row of the plates outside the decoder's own plate; real numbers, no rounding.
-/

namespace Storch.Decode

/-- `SampleWithoutReplacement.EPS` (swor.py:18). -/
noncomputable def EPS : ℝ := 1e-8

/-- swor.py:196-199: `1 - exp(-exp(log_prob - kappa))`; for `kappa` minus infinity torch computes `1 - exp(-inf)`. -/
noncomputable def inclusion (logProb : ℝ) : WithBot ℝ → ℝ
  | none => 1
  | some kappa => 1 - Real.exp (-Real.exp (logProb - kappa))

/-- `SampleWithoutReplacement.compute_iw` (swor.py:192-207), for the log-probabilities and perturbed log-probabilities
kept in the plate.  The last perturbed log-probability is `perturb_log_probs[..., k - 1]`; `k` is their number, not the
constructor argument.  `none`: all weights are not-a-number, from a division of zeros (swor.py:204-206). -/
noncomputable def computeIw (p : APlate ℝ) (biased : Bool) : Except Err (Option (List ℝ)) :=
  match p.perturb.getLast? with
  | none => .error .index
  | some kappa =>
    let k := p.perturb.length
    let iw := p.logProbs.map (fun l => Real.exp l / (inclusion l kappa + EPS))
    if iw.length < k then .error .index
    else
      let iw := iw.set (k - 1) 0
      if biased then
        if iw.sum = 0 then .ok none
        else .ok (some (iw.map (fun w => w / iw.sum)))
      else .ok (some iw)

/-- `SampleWithoutReplacement.weighting_function` (swor.py:185-190) for the newest plate of the decoder. -/
noncomputable def weightSwor (biased : Bool) (s : St ℝ) : Except Err (Option (List ℝ)) :=
  match s.plates with
  | [] => .error .attribute
  | p :: _ => computeIw p biased

end Storch.Decode
