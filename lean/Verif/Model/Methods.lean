import Verif.Model.Surrogate

/-!
# `is_pathwise` of the gradient estimation methods (storch/method/method.py)
-/

namespace Storch
variable {α : Type _} [ValEq α]

/-- The methods of method.py. -/
inductive MethodKind
  | infer | reparameterization | gumbelSoftmax | gumbelEntmax | scoreFunction | expect
  deriving DecidableEq

/-- `method.is_pathwise(tensor, cost_node)` (method.py:236-241, 300-306, 325-333, 389-397, 461-471).  `check` is
`storch.CHECK_DIFFERENTIABLE_PATH` (`False` by default, `__init__.py:31`), `path` is
`has_differentiable_path(cost_node, tensor)`; an error of `path` is passed on only where the code calls it. -/
def MethodKind.isPathwise (check : Bool) (path : Except Err Bool) : MethodKind → Except Err Bool
  | .infer => path
  | .reparameterization | .gumbelSoftmax | .gumbelEntmax =>
    if !check then .ok true
    else
      match path with
      | .error e => .error e
      | .ok true => .ok true
      | .ok false => .error .value
  | .scoreFunction | .expect => .ok false

/-- A tensor sampled with `Infer` (method.py:257-306) for a distribution with `rsample`: the values are those
of `Reparameterization.reparam_sample`, the estimator is that of a `ScoreFunction` without a baseline
(method.py:286-292).  `pathwise` is the answer of `is_pathwise`. -/
def inferSampled [CommRing α] [Autograd α] (hook : UnwrapHook α) (inv : Nat → α)
    (logProb : STen α → Except Err (STen α)) (n : Nat) (name : String) (pathwise : Bool)
    (tensor : STen α) : Sampled α :=
  ⟨tensor, pathwise, scoreEstimator hook inv logProb n name none⟩

end Storch
