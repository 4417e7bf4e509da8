import Verif.Model.Gumbel

/-!
# The relaxed samples of RELAX and the Gumbel softmax methods

`rsample_gumbel_softmax` (util.py:229-251) calls torch's relaxed distributions; `discretize` is relax.py:155-163.
-/

namespace Storch.Gumbel

/-- `rsample_gumbel_softmax(distr, n, temperature)` (util.py:229-251) of a categorical distribution, one row: torch's
`RelaxedOneHotCategorical(temperature, probs).rsample()`; `u` is `torch.rand`.  `probs` sum to one, as `distr.probs` do. -/
noncomputable def relaxedCategorical {n : Nat} (eps temperature : ℝ) (prob u : Fin n → ℝ) : Fin n → ℝ :=
  normaliseScores (fun i =>
    (Real.log (clampProbs eps (prob i)) + -Real.log (-Real.log (clampProbs eps (u i)))) / temperature)

/-- `rsample_gumbel_softmax(distr, n, temperature)` (util.py:229-251) of a Bernoulli distribution, one element: torch's
`RelaxedBernoulli(temperature, probs).rsample()`; `u` is `torch.rand`. -/
noncomputable def relaxedBernoulli (eps temperature prob u : ℝ) : ℝ :=
  let p := clampProbs eps prob
  let v := clampProbs eps u
  sigmoid ((Real.log v - log1p (-v) + Real.log p - log1p (-p)) / temperature)

/-- `discretize` (relax.py:155-163) of a row of a categorical sample: `am` is `tensor.max(-1)[1]`, an index of the largest
entry. -/
def discretizeRow {n : Nat} (am : (Fin n → ℝ) → Fin n) (row : Fin n → ℝ) (i : Fin n) : ℝ := if i = am row then 1 else 0

/-- `discretize` (relax.py:155-163) of an element of a Bernoulli sample: `tensor.round()`.  For numbers between 0 and 1;
torch rounds one half to the even number 0. -/
noncomputable def discretizeElt (x : ℝ) : ℝ := if 1 / 2 < x then 1 else 0

/-- `conditional_gumbel_rsample(hard_sample, probs, False, temperature)` (storch.py:269-305) for one row, with the index
of the largest entry found as in storch.py:293. -/
noncomputable def conditionalRow {n : Nat} (am : (Fin n → ℝ) → Fin n) (eps temperature : ℝ) (hard prob v : Fin n → ℝ) :
    Fin n → ℝ :=
  conditionalCategorical eps temperature hard (am hard) prob v

end Storch.Gumbel
