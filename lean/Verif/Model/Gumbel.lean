import Verif.Model.Base
import Mathlib.Analysis.SpecialFunctions.Log.Basic
import Mathlib.Data.Fintype.BigOperators
import Mathlib.Algebra.Order.BigOperators.Ring.Finset

/-!
# Conditional Gumbel samples (storch/sampling/swor.py:228-251, storch/storch.py:269-305)

The functions work on each row of the last dimension separately; the model is that of one row, a list of real
numbers (a simplification: no rounding, no infinities).  Random numbers are arguments.
-/

namespace Storch.Gumbel

/-- `torch.expm1`.  Used at swor.py:236. -/
noncomputable def expm1 (a : ℝ) : ℝ := Real.exp a - 1

/-- `torch.log1p`.  Used at swor.py:236. -/
noncomputable def log1p (a : ℝ) : ℝ := Real.log (1 + a)

/-- `tensor.relu()`.  Used at swor.py:251. -/
noncomputable def relu (a : ℝ) : ℝ := max a 0

/-- `torch.nn.Softplus()` (its linear branch for arguments above 20 is not used here: the argument is not
positive).  Used at swor.py:251. -/
noncomputable def softplus (a : ℝ) : ℝ := Real.log (1 + Real.exp a)

/-- `log1mexp(a)` (swor.py:228-236). -/
noncomputable def log1mexp (a : ℝ) : ℝ :=
  let c := -0.693
  let a1 := -|a|
  let eps := 1e-6
  if a1 > c then Real.log (-expm1 a1 + eps) else log1p (-Real.exp a1 + eps)

/-- `G_yv.max(dim=-1)[0]`; torch raises for an empty row.  swor.py:247. -/
noncomputable def rowMax : List ℝ → Except Err ℝ
  | [] => .error .torch
  | g :: gs => .ok (gs.foldl max g)

/-- swor.py:249-251 for one element: `g` is the Gumbel variable, `z` the maximum of its row, `t` the value
that the row is conditioned on. -/
noncomputable def condElt (t z g : ℝ) : ℝ :=
  let vi := t - g + log1mexp (g - z)
  t - relu vi - softplus (-|vi|)

/-- `cond_gumbel_sample(all_joint_log_probs, perturbed_log_probs)` (swor.py:239-251) for one row.  The Gumbel
variables are the log-probabilities plus the noise (`Gumbel(loc, 1).rsample()`). -/
noncomputable def condGumbelSample (logProbs noise : List ℝ) (t : ℝ) : Except Err (List ℝ) :=
  let g := List.zipWith (fun a b => a + b) logProbs noise
  match rowMax g with
  | .error e => .error e
  | .ok z => .ok (g.map (condElt t z))

/-- `torch.distributions.utils.clamp_probs`; `eps` is the machine epsilon of the element type.
Used at storch.py:269-291. -/
noncomputable def clampProbs (eps p : ℝ) : ℝ := min (max p eps) (1 - eps)

/-- `tensor.sigmoid()`.  Used at storch.py:291. -/
noncomputable def sigmoid (x : ℝ) : ℝ := 1 / (1 + Real.exp (-x))

/-- `conditional_gumbel_rsample(hard_sample, probs, True, temperature)` (storch.py:278-291) for one element;
`u` is `torch.rand`. -/
noncomputable def conditionalBernoulli (eps temperature hard prob u : ℝ) : ℝ :=
  let p := clampProbs eps prob
  let v := clampProbs eps u
  let v' := if hard = 1 then v * p + (1 - p) else if hard = 0 then v * (1 - p) else 0
  sigmoid ((Real.log p + log1p p + Real.log v' + log1p v') / temperature)

/-- storch.py:292-304 for one row: the scores.  `hard` is the row of the hard sample, `b` the index of its
maximum; entries with `hard[i].bool()` are overwritten (line 302). -/
noncomputable def conditionalScores {n : Nat} (eps temperature : ℝ) (hard : Fin n → ℝ) (b : Fin n)
    (prob u : Fin n → ℝ) (i : Fin n) : ℝ :=
  let p := fun i => clampProbs eps (prob i)
  let logv := fun i => Real.log (clampProbs eps (u i))
  (if hard i ≠ 0 then -Real.log (-logv i) else -Real.log (-(logv i / p i) - logv b)) / temperature

/-- `(scores - scores.logsumexp(dim=-1, keepdim=True)).exp()` (storch.py:305). -/
noncomputable def normaliseScores {n : Nat} (s : Fin n → ℝ) (i : Fin n) : ℝ :=
  Real.exp (s i - Real.log (∑ j, Real.exp (s j)))

/-- `conditional_gumbel_rsample(hard_sample, probs, False, temperature)` (storch.py:278-305) for one row. -/
noncomputable def conditionalCategorical {n : Nat} (eps temperature : ℝ) (hard : Fin n → ℝ) (b : Fin n)
    (prob u : Fin n → ℝ) : Fin n → ℝ :=
  normaliseScores (conditionalScores eps temperature hard b prob u)

end Storch.Gumbel
