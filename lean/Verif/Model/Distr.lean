import Verif.Model.Plate

/-!
# Parameters of distributions (storch/util.py:67-92) and what a sample takes from them (storch/method/method.py:100-122)
-/

namespace Storch
namespace Params

/-- A tensor that is a parameter of a distribution: its identity, whether it is a `storch.Tensor`, its plates and its
`requires_grad`.  Elements do not matter for util.py:67-92 and method.py:100-122. -/
structure Param (α : Type _) where
  id : Nat
  isStorch : Bool
  plates : List (Plate α)
  requiresGrad : Bool

/-- What `getattr(d, k)` gives (util.py:74): a tensor, something else, or an `AttributeError`. -/
inductive Attr (τ : Type _)
  | tensor (t : τ)
  | other
  | missing

/-- A `torch.distributions.Distribution`, as far as util.py:67-92 looks at it: the keys of `arg_constraints`, the
attributes, and `base_dist` when there is one.  `parts` are distributions that it holds otherwise, like the components of a
`MixtureSameFamily`; the code does not look at them. -/
inductive Distr (τ : Type _)
  | mk (constraints : List String) (attr : String → Attr τ) (base : Option (Distr τ)) (parts : List (Distr τ))

/-- The loop `for k in d.arg_constraints` (util.py:72-86); `keep` is the test of line 75 on a tensor. -/
def addParams {τ : Type _} (keep : τ → Bool) (attr : String → Attr τ) :
    List String → List (String × τ) → List (String × τ)
  | [], params => params
  | k :: ks, params =>
    match attr k with
    | .tensor t => addParams keep attr ks (if keep t then dset params k t else params)
    | .other => addParams keep attr ks params
    | .missing => addParams keep attr ks params

/-- The loop `while d` (util.py:71-91). -/
def distrLoop {τ : Type _} (keep : τ → Bool) : Distr τ → List (String × τ) → List (String × τ)
  | .mk cs attr none _, params => addParams keep attr cs params
  | .mk cs attr (some d) _, params => distrLoop keep d (addParams keep attr cs params)

/-- `get_distr_parameters(d, filter_requires_grad)` (util.py:67-92). -/
def getDistrParameters {α : Type _} (d : Distr (Param α)) (filterRequiresGrad : Bool) : List (String × Param α) :=
  distrLoop (fun p => !filterRequiresGrad || p.requiresGrad) d []

/-- The local variables of `Method.sample` (method.py:100-103). -/
structure SampleArgs (α : Type _) where
  parents : List (Param α)
  plates : List (Plate α)
  requiresGrad : Bool

/-- `if plate not in plates: plates.append(plate)` for the plates of a parameter (method.py:120-122). -/
def addPlates {α : Type _} [ValEq α] : List (Plate α) → List (Plate α) → List (Plate α)
  | [], plates => plates
  | p :: ps, plates => addPlates ps (if p.isIn plates then plates else plates ++ [p])

/-- One turn of the loop over the parameters (method.py:109-122). -/
def addParam {α : Type _} [ValEq α] (a : SampleArgs α) (p : Param α) : SampleArgs α :=
  if p.isStorch then
    { parents := if a.parents.any (fun q => q.id == p.id) then a.parents else a.parents ++ [p]
      plates := addPlates p.plates a.plates
      requiresGrad := a.requiresGrad || p.requiresGrad }
  else { a with requiresGrad := a.requiresGrad || p.requiresGrad }

/-- method.py:100-122: parents, plates and `requires_grad` of a sample, from the surrounding `@stochastic` context and
the distribution. -/
def sampleArgs {α : Type _} [ValEq α] (ctxParents : List (Param α)) (ctxPlates : List (Plate α))
    (d : Distr (Param α)) : SampleArgs α :=
  ((getDistrParameters d false).map Prod.snd).foldl addParam ⟨ctxParents, ctxPlates, false⟩

end Params
end Storch
