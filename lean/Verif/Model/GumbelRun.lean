import Verif.Model.RelaxRun

/-!
# A program with a variable sampled with `GumbelSoftmax`

`x = GumbelSoftmax(name, n_samples=n, straight_through=b)(distr)` with `distr` a `OneHotCategorical` or a `Bernoulli`
distribution with parameters of shape `(m, K)`, and `add_cost(f(x), "cost")`.  method.py:350-411, util.py:229-251.
-/

namespace Storch
open Gumbel

/-- The distributions that `rsample_gumbel_softmax` accepts.  util.py:235-250. -/
inductive GumbelKind where
  | oneHot
  | bernoulli

/-- The distribution, with its probabilities, and the temperature, which is a buffer and has no gradient.
method.py:374-377. -/
structure GumbelVar (E : Type _) (m K : Nat) where
  kind : GumbelKind
  prob : E → Nat → Fin K → ℝ
  temp : ℝ

section
variable {E : Type _} {θ₀ : E} {m K : Nat}

/-- The relaxed samples of row `r` (util.py:241, 248, 251); `u` are the random numbers of that row. -/
noncomputable def GumbelVar.soft (d : GumbelVar E m K) (eps : ℝ) (u : Fin K → ℝ) (θ : E) (r : Nat) (i : Fin K) : ℝ :=
  match d.kind with
  | .oneHot => relaxedCategorical eps d.temp (d.prob θ r) u i
  | .bernoulli => relaxedBernoulli eps d.temp (d.prob θ r i) (u i)

/-- The forward pass of the straight-through distributions (util.py:237-239, 244-246): pyro takes `am`, an index of the
largest entry, or rounds.  The code is pyro's. -/
noncomputable def quantize (kind : GumbelKind) (am : (Fin K → ℝ) → Fin K) (row : Fin K → ℝ) (i : Fin K) : ℝ :=
  match kind with
  | .oneHot => discretizeRow am row i
  | .bernoulli => discretizeElt (row i)

/-- `rsample_gumbel_softmax(distr, n, temperature, straight_through)` (util.py:229-251, method.py:379-388).  With
`straight_through` pyro clamps the relaxed sample and quantizes it; the gradient passes through the quantization
unchanged, so the result is the quantized value plus the difference of the clamped sample and its detached self. -/
noncomputable def GumbelVar.sample (d : GumbelVar E m K) (am : (Fin K → ℝ) → Fin K) (eps : ℝ) (straight : Bool)
    (u : Nat → Nat → Fin K → ℝ) (n : Nat) : Ten (AD E θ₀) :=
  ⟨[n, m, K], fun idx θ => if h : idx.getD 2 0 < K then
    let soft := fun θ i => d.soft eps (u (idx.headD 0) (idx.getD 1 0)) θ (idx.getD 1 0) i
    if straight then
      let hard := quantize d.kind am (fun i => clampProbs eps (soft θ₀ i)) ⟨idx.getD 2 0, h⟩
      hard + (clampProbs eps (soft θ ⟨idx.getD 2 0, h⟩) - clampProbs eps (soft θ₀ ⟨idx.getD 2 0, h⟩))
    else soft θ ⟨idx.getD 2 0, h⟩
    else 0⟩

/-- The program: sample (method.py:93-193, 379-388), register the cost (inference.py:86-102), compute the surrogate loss
(inference.py:105-206).  The method is pathwise (method.py:389-397, with `storch.CHECK_DIFFERENTIABLE_PATH` off as by
default). -/
noncomputable def gumbelProgram (hook : UnwrapHook (AD E θ₀)) (inv : Nat → AD E θ₀) (eps : ℝ) (am : (Fin K → ℝ) → Fin K)
    (d : GumbelVar E m K) (straight : Bool) (f : E → (Fin m → Fin K → ℝ) → ℝ) (name : String) (n : Nat)
    (u : Nat → Nat → Fin K → ℝ) : Except Err (STen (AD E θ₀)) :=
  match monteCarlo inv name n [] [.torch ⟨[m, K], fun idx θ => if h : idx.getD 1 0 < K then
      d.prob θ (idx.headD 0) ⟨idx.getD 1 0, h⟩ else 0⟩] (d.sample am eps straight u) with
  | .error e => .error e
  | .ok (t, _) => surrogateLoss hook [(perSample f t, [reparamSampled t])]

end

end Storch
