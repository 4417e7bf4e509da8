import Verif.Model.Relax
import Verif.Model.Relaxed

/-!
# A program with a variable sampled with `RELAX`

`x = RELAX(name, n_samples=n, c_phi=net)(OneHotCategorical(probs))` with `m` independent variables of `K` outcomes, and
`add_cost(f(x), "cost")`.  `RELAX` without rebar (relax.py:166-333).
-/

namespace Storch
open Gumbel

section
variable {E : Type _} {θ₀ : E} {K : Nat}

/-- A function of the rows of a tensor; it also sees the index of the row.  Reading outside the tensor raises in
Python; here it gives zero.  No Python counterpart: torch's operations along the last dimension, as at relax.py:159-163 and
storch.py:293-305. -/
noncomputable def mapRows (F : List Nat → (Fin K → AD E θ₀) → Fin K → AD E θ₀) (x : STen (AD E θ₀)) : STen (AD E θ₀) :=
  open Classical in
  ⟨⟨x.ten.shape, fun idx => if h : Ten.InB idx x.ten.shape ∧ idx.getLastD 0 < K then
    F idx.dropLast (fun i => x.ten.get (idx.dropLast ++ [i.val])) ⟨idx.getLastD 0, h.2⟩ else 0⟩, x.plates, x.plateDims⟩

/-- `discretize(tensor, distr)` (relax.py:155-163) of a tensor of categorical samples; no gradient flows back. -/
noncomputable def discretizeSt (am : (Fin K → ℝ) → Fin K) (x : STen (AD E θ₀)) : STen (AD E θ₀) :=
  mapRows (fun _ row i => AD.const (discretizeRow am (fun i => (row i).val) i)) x

/-- A variable: the probabilities, the temperature, the factor `eta` and the control network, which gives one number per
sample.  relax.py:174-212. -/
structure RelaxVar (E : Type _) (m K : Nat) where
  prob : E → Nat → Fin K → ℝ
  temp : E → ℝ
  eta : E → ℝ
  net : E → (Fin m → Fin K → ℝ) → ℝ

variable {m : Nat}

/-- `rsample_gumbel_softmax(distr, n, temperature)` (util.py:229-251, relax.py:235-237); `u` are the random numbers. -/
noncomputable def RelaxVar.relaxed (d : RelaxVar E m K) (eps : ℝ) (u : Nat → Nat → Fin K → ℝ) (n : Nat) : Ten (AD E θ₀) :=
  ⟨[n, m, K], fun idx θ => if h : idx.getD 2 0 < K then
    relaxedCategorical eps (d.temp θ) (d.prob θ (idx.getD 1 0)) (u (idx.headD 0) (idx.getD 1 0)) ⟨idx.getD 2 0, h⟩ else 0⟩

/-- `conditional_gumbel_rsample(hard_sample, distribution.probs, False, temperature)` (storch.py:269-305,
relax.py:298-300); `v` are the random numbers. -/
noncomputable def RelaxVar.cond (d : RelaxVar E m K) (am : (Fin K → ℝ) → Fin K) (eps : ℝ) (v : List Nat → Fin K → ℝ)
    (x : STen (AD E θ₀)) : STen (AD E θ₀) :=
  mapRows (fun pos row i => fun θ =>
    conditionalRow am eps (d.temp θ) (fun i => (row i).val) (d.prob θ (pos.getLastD 0)) (v pos) i) x

/-- A function that gives one number per sample: the control network (relax.py:302-303) or the cost. -/
def perSample (g : E → (Fin m → Fin K → ℝ) → ℝ) (x : STen (AD E θ₀)) : STen (AD E θ₀) :=
  ⟨⟨x.ten.shape.take x.plateDims, fun idx => fun θ => g θ (fun d i => x.ten.get (idx ++ [d.val, i.val]) θ)⟩, x.plates,
    x.plateDims⟩

/-- `distribution.log_prob(hard_sample)` (relax.py:304) of torch's `OneHotCategorical`: the logarithm of the clamped
probability of the index of the largest entry. -/
noncomputable def RelaxVar.logProb (d : RelaxVar E m K) (am : (Fin K → ℝ) → Fin K) (eps : ℝ) (x : STen (AD E θ₀)) :
    STen (AD E θ₀) :=
  ⟨⟨x.ten.shape.dropLast, fun idx => fun θ =>
    Real.log (clampProbs eps (d.prob θ (idx.getLastD 0) (am (fun i => (x.ten.get (idx ++ [i.val])).val))))⟩, x.plates,
    x.plateDims⟩

/-- The program: sample (method.py:93-193, relax.py:214-237), discretize (relax.py:251-261), register the cost
(inference.py:86-102), compute the surrogate loss (inference.py:105-206) with the estimator of `RELAX` (relax.py:307-333). -/
noncomputable def relaxProgram (hook : UnwrapHook (AD E θ₀)) (inv : Nat → AD E θ₀) (eps : ℝ) (am : (Fin K → ℝ) → Fin K)
    (d : RelaxVar E m K) (f : E → (Fin m → Fin K → ℝ) → ℝ) (name : String) (n : Nat) (u : Nat → Nat → Fin K → ℝ)
    (v : List Nat → Fin K → ℝ) : Except Err (STen (AD E θ₀)) :=
  match relaxSample inv name n [] [.torch ⟨[m, K], fun idx θ => if h : idx.getD 1 0 < K then
      d.prob θ (idx.headD 0) ⟨idx.getD 1 0, h⟩ else 0⟩] false (fun t => t) (fun t => t) (d.relaxed eps u) with
  | .error e => .error e
  | .ok (t, _) =>
    surrogateLoss hook [(perSample f (discretizeSt am t),
      [relaxSampled hook (.torch (.scalar d.eta)) (fun x => .ok (discretizeSt am x)) (fun x => .ok (d.cond am eps v x))
        (fun x => .ok (.st (perSample d.net x) false)) (fun x => .ok (d.logProb am eps x)) name t])]

end

end Storch
