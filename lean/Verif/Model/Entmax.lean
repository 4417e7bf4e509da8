import Verif.Model.GumbelRun

/-!
# A variable sampled with `GumbelEntmax` or `GumbelSparseMax`

method.py:406-506 and `rsample_gumbel` (util.py:224-226).
-/

namespace Storch
open Gumbel

/-- The functions of the package `entmax` that the method uses, on vectors of every length.  The package is not part of the
repository: what its documentation promises is `EntmaxLib.Keeps` in Verif/Props/EntmaxProps.lean.  The functions act along the
last dimension of a tensor (their default `dim=-1`).  method.py:434-444. -/
structure EntmaxLib where
  entmax15 : (d : Nat) → (Fin d → ℝ) → Fin d → ℝ
  sparsemax : (d : Nat) → (Fin d → ℝ) → Fin d → ℝ
  bisect : (d : Nat) → (Fin d → ℝ) → ℝ → Fin d → ℝ

/-- The arguments of the constructor that the samples can depend on.  method.py:407-418. -/
structure EntmaxArgs where
  alpha : ℝ := 3 / 2
  adaptive : Bool := false
  straightThrough : Bool := false
  temperature : ℝ := 1

/-- `GumbelSparseMax.__init__`: the constructor of `GumbelEntmax` with `2.0` in the place of `alpha`.
method.py:487-506. -/
noncomputable def sparseMaxArgs (straight : Bool) (temperature : ℝ) : EntmaxArgs :=
  { alpha := 2, straightThrough := straight, temperature := temperature }

/-- `torch.nn.functional.softplus`.  Used at method.py:441. -/
noncomputable def softplus (x : ℝ) : ℝ := Real.log (1 + Real.exp x)

/-- `self.entmax` as the constructor chooses it.  method.py:429-444. -/
noncomputable def EntmaxArgs.choose (a : EntmaxArgs) (lib : EntmaxLib) (d : Nat) (x : Fin d → ℝ) : Fin d → ℝ :=
  if a.adaptive = false ∧ a.alpha = 3 / 2 then lib.entmax15 d x
  else if a.adaptive = false ∧ a.alpha = 2 then lib.sparsemax d x
  else if a.adaptive then lib.bisect d x (softplus (a.alpha - 1) + 1)
  else lib.bisect d x a.alpha

/-- `distr.logits` for a distribution made with `probs`, that are already normalised: `probs_to_logits` of
torch.distributions.  Used at util.py:225. -/
noncomputable def logitOf (kind : GumbelKind) (eps p : ℝ) : ℝ :=
  match kind with
  | .oneHot => Real.log (clampProbs eps p)
  | .bernoulli => Real.log (clampProbs eps p) - Real.log (1 - clampProbs eps p)

/-- `rsample_gumbel(distr, n)`: a sample of `Gumbel(distr.logits, 1)`; `u` are its random numbers between 0 and 1.
util.py:224-226. -/
noncomputable def rsampleGumbel (kind : GumbelKind) (eps : ℝ) (probs : Ten ℝ) (u : List Nat → ℝ) (n : Nat) : Ten ℝ :=
  ⟨n :: probs.shape, fun idx => logitOf kind eps (probs.get idx.tail) + -Real.log (-Real.log (u idx))⟩

/-- A function of vectors along the last dimension of a tensor.  Reading outside the tensor raises in Python; here it gives
zero.  No Python counterpart: the functions of `entmax` at method.py:458. -/
noncomputable def alongLast (f : (d : Nat) → (Fin d → ℝ) → Fin d → ℝ) (t : Ten ℝ) : Ten ℝ :=
  ⟨t.shape, fun idx => if h : idx.getLastD 0 < t.shape.getLastD 0 then
    f (t.shape.getLastD 0) (fun j => t.get (idx.dropLast ++ [j.val])) ⟨idx.getLastD 0, h⟩ else 0⟩

/-- `sample_gumbel_entmax`.  method.py:446-459. -/
noncomputable def sampleGumbelEntmax (lib : EntmaxLib) (a : EntmaxArgs) (kind : GumbelKind) (eps : ℝ) (probs : Ten ℝ)
    (u : List Nat → ℝ) (n : Nat) : Ten ℝ :=
  alongLast (a.choose lib) ((rsampleGumbel kind eps probs u n).map (fun g => g / a.temperature))

/-- `GumbelEntmax(name, n_samples=n, …)(distr)`, for a distribution without storch parents.  method.py:93-136,
419-424. -/
noncomputable def gumbelEntmax (lib : EntmaxLib) (a : EntmaxArgs) (kind : GumbelKind) (eps : ℝ) (probs : Ten ℝ)
    (u : List Nat → ℝ) (name : String) (n : Nat) : Except Err (STen ℝ × Plate ℝ) :=
  monteCarlo (fun k => 1 / (k : ℝ)) name n [] [.torch probs] (sampleGumbelEntmax lib a kind eps probs u)

section
variable {E : Type _} {θ₀ : E} {m K : Nat}

/-- A program with a variable sampled with `GumbelEntmax`: sample as above, the probabilities (of shape `(m, K)`) being
functions of the parameters `E`; register the cost (inference.py:86-102) and compute the surrogate loss
(inference.py:105-206).  The method is pathwise (method.py:461-472, with `storch.CHECK_DIFFERENTIABLE_PATH` off as by
default); the gradient passes through every operation.  Simplified: a learned `alpha` (method.py:430-433) is not among the
parameters. -/
noncomputable def entmaxProgram (hook : UnwrapHook (AD E θ₀)) (inv : Nat → AD E θ₀) (lib : EntmaxLib) (a : EntmaxArgs)
    (kind : GumbelKind) (eps : ℝ) (probs : E → Ten ℝ) (f : E → (Fin m → Fin K → ℝ) → ℝ) (name : String) (n : Nat)
    (u : List Nat → ℝ) : Except Err (STen (AD E θ₀)) :=
  match monteCarlo inv name n [] [.torch ⟨(probs θ₀).shape, fun idx θ => (probs θ).get idx⟩]
      (fun n => ⟨n :: (probs θ₀).shape, fun idx θ => (sampleGumbelEntmax lib a kind eps (probs θ) u n).get idx⟩) with
  | .error e => .error e
  | .ok (t, _) => surrogateLoss hook [(perSample f t, [reparamSampled t])]

end

end Storch
