import Verif.Model.RelaxRun

/-!
# A program with a variable sampled with `REBAR`

`x = REBAR(name, n_samples=n)(OneHotCategorical(probs))` with `m` independent variables of `K` outcomes, and
`add_cost(f(x), "cost")`; also `RELAX` with `rebar=True` and a control network (relax.py:166-382).
-/

namespace Storch
open Gumbel

section
variable {E : Type _} {θ₀ : E} {K m : Nat}

/-- `discretize(relaxed_sample, distr)` on a torch tensor (relax.py:155-163, 229). -/
noncomputable def discretizeTen (am : (Fin K → ℝ) → Fin K) (x : Ten (AD E θ₀)) : Ten (AD E θ₀) :=
  (discretizeSt am ⟨x, [], 0⟩).ten

/-- `conditional_gumbel_rsample(hard_sample, distr.probs, False, temperature)` on a torch tensor (storch.py:269-305,
relax.py:230-232). -/
noncomputable def RelaxVar.condTen (d : RelaxVar E m K) (am : (Fin K → ℝ) → Fin K) (eps : ℝ) (v : List Nat → Fin K → ℝ)
    (x : Ten (AD E θ₀)) : Ten (AD E θ₀) :=
  (d.cond am eps v ⟨x, [], 0⟩).ten

/-- The program: sample three rows for each sample (method.py:93-193, relax.py:214-261), register the cost of all rows
(inference.py:86-102), compute the surrogate loss (inference.py:105-206) with the estimator of `RELAX` with rebar
(relax.py:263-333).  `cPhi` is the control network; `REBAR` has `zeroControl` (relax.py:365-382).  Simplified: the
log-probability of the rows that are not one-hot (relax.py:266) is that of their largest entry, as in torch without argument
validation. -/
noncomputable def rebarProgram (hook : UnwrapHook (AD E θ₀)) (inv : Nat → AD E θ₀) (eps : ℝ) (am : (Fin K → ℝ) → Fin K)
    (d : RelaxVar E m K) (cPhi : Ten (AD E θ₀) → Except Err (Ten (AD E θ₀))) (f : E → (Fin m → Fin K → ℝ) → ℝ)
    (name : String) (n : Nat) (u : Nat → Nat → Fin K → ℝ) (v : List Nat → Fin K → ℝ) : Except Err (STen (AD E θ₀)) :=
  match relaxSample inv name n [] [.torch ⟨[m, K], fun idx θ => if h : idx.getD 1 0 < K then
      d.prob θ (idx.headD 0) ⟨idx.getD 1 0, h⟩ else 0⟩] true (discretizeTen am) (d.condTen am eps v) (d.relaxed eps u) with
  | .error e => .error e
  | .ok (t, _) =>
    surrogateLoss hook [(perSample f t,
      [rebarSampled hook (.torch (.scalar d.eta)) cPhi (fun x => .ok (d.logProb am eps x)) name t])]

end

end Storch
