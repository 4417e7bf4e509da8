import Verif.Model.Relax
import Verif.Model.Hooks
import Verif.Model.AD
import Mathlib.Analysis.Calculus.Deriv.Basic

/-!
# How `RELAX` trains its control variate (storch/method/relax.py:335-362), and when `backward` asks for it
(storch/inference.py:166-186, 230-253, storch/method/method.py:195-199, 222-225)

The elements of the tensors depend on the values of the control parameters (`self.control_params`, relax.py:188-196):
coordinate `c` of parameter `i` is `φ i c`.  `torch.autograd.grad` is read as the partial derivative at the current
values `φ₀`.
-/

namespace Storch.RelaxUpdate

/-- The values of the control parameters.  relax.py:188-196. -/
abbrev Ctl := Nat → Nat → ℝ

/-- Replace one coordinate of one control parameter.  No Python counterpart: used to read `torch.autograd.grad`
(relax.py:357). -/
def setCoord (φ : Ctl) (i c : Nat) (x : ℝ) : Ctl := Function.update φ i (Function.update (φ i) c x)

/-- A stochastic tensor above a cost: who it is, its method, whether it requires a gradient.  inference.py:132-137,
236-241. -/
structure SNode where
  id : Nat
  method : Option Nat
  requiresGrad : Bool
  deriving DecidableEq

/-- The tensor that `surrogate_loss` makes for a cost and one of its parents (inference.py:166-175): a new object
(`obj`) that shares the dict `param_grads` of its parent `node` (inference.py:176).  Stochastic tensors are hashed by
identity. -/
structure NewParent where
  obj : Nat
  node : Nat
  deriving DecidableEq

/-- The loop over the parents of a cost (inference.py:132-186) as far as it fills `_estimation_pairs` of method `m`
(method.py:195-199): the pairs, and the number of the next new object.  `RELAX` does not override `is_pathwise`
(method.py:236-241).  Whether other methods are pathwise only decides how many objects are made. -/
def pairsOfCost (m : Nat) (pathwise : Nat → Bool) (cost : Nat) : List SNode → Nat → List (NewParent × Nat) × Nat
  | [], k => ([], k)
  | s :: ss, k =>
    match s.method with
    | none => pairsOfCost m pathwise cost ss k
    | some q =>
      if !s.requiresGrad then pairsOfCost m pathwise cost ss k
      else if q = m then
        ((⟨k, s.id⟩, cost) :: (pairsOfCost m pathwise cost ss (k + 1)).1, (pairsOfCost m pathwise cost ss (k + 1)).2)
      else if pathwise q then pairsOfCost m pathwise cost ss k
      else pairsOfCost m pathwise cost ss (k + 1)

/-- The loop over the costs (inference.py:116-202); `cost` is the position of the first one. -/
def pairsOf (m : Nat) (pathwise : Nat → Bool) : List (List SNode) → Nat → Nat → List (NewParent × Nat)
  | [], _, _ => []
  | ss :: r, cost, k =>
    (pairsOfCost m pathwise cost ss k).1 ++ pairsOf m pathwise r (cost + 1) (pairsOfCost m pathwise cost ss k).2

section
variable {φ₀ : Ctl}

/-- What the stochastic tensors hold after the backward pass (inference.py:248) and what torch knows about the recorded
gradient for `probs`: the dict `param_grads` (method.py:63-77), `requires_grad`, and which control parameters its graph
reaches. -/
structure Recorded (φ₀ : Ctl) where
  grads : Nat → List (String × STen (AD Ctl φ₀))
  requiresGrad : Nat → Bool
  reaches : Nat → Nat → Bool

/-- The fixed part of a method: the number of control parameters and how many numbers each holds.  relax.py:188-196. -/
structure Params where
  count : Nat
  numel : Nat → Nat

/-- relax.py:354-355: `storch.reduce_plates((d_param ** 2).sum(d_param.event_dim_indices))`, with `detach_weights` as by
default. -/
noncomputable def varLoss (hook : UnwrapHook (AD Ctl φ₀)) (d : STen (AD Ctl φ₀)) : Except Err (STen (AD Ctl φ₀)) :=
  match asSt (handleDet hook false false {} (elementwiseFn sqElts) (opArgs [.st d false])) with
  | .error e => .error e
  | .ok sq =>
    match sumIndices hook sq with
    | .error e => .error e
    | .ok v => reducePlates hook Autograd.detach (.st v false) []

/-- `torch.autograd.grad([v], params, allow_unused=True)` (relax.py:357-359) for parameter `i`: the partial derivatives,
or `None` when the graph does not reach the parameter. -/
noncomputable def autogradGrad (reaches : Nat → Bool) (v : AD Ctl φ₀) (i : Nat) : Option (Nat → ℝ) :=
  if reaches i then some (fun c => deriv (fun x => v (setCoord φ₀ i c x)) (φ₀ i c)) else none

/-- `param.backward(g)` on a leaf (relax.py:361): `g` is added to `param.grad`; `None` stands for a one, if the
parameter holds a single number, otherwise torch raises. -/
def leafBackward (numel : Nat) (grad : Option (Nat → ℝ)) : Option (Nat → ℝ) → Except Err (Option (Nat → ℝ))
  | some g => .ok (some (fun c => (grad.getD (fun _ => 0)) c + g c))
  | none => if numel = 1 then .ok (some (fun c => (grad.getD (fun _ => 0)) c + 1)) else .error .torch

/-- relax.py:360-361: the loop over the control parameters; `i` is the position of the first one. -/
noncomputable def backwardAll (p : Params) (reaches : Nat → Bool) (v : AD Ctl φ₀) :
    Nat → Nat → (Nat → Option (Nat → ℝ)) → Except Err (Nat → Option (Nat → ℝ))
  | 0, _, g => .ok g
  | k + 1, i, g =>
    match leafBackward (p.numel i) (g i) (autogradGrad reaches v i) with
    | .error e => .error e
    | .ok gi => backwardAll p reaches v k (i + 1) (Function.update g i gi)

/-- The body of the loop of relax.py:347-361 for one tensor. -/
noncomputable def updateOne (hook : UnwrapHook (AD Ctl φ₀)) (p : Params) (rec : Recorded φ₀) (node : Nat)
    (g : Nat → Option (Nat → ℝ)) : Except Err (Nat → Option (Nat → ℝ)) :=
  match dictGet "probs" (rec.grads node) with
  | none => .error .key
  | some d =>
    if !rec.requiresGrad node then .ok g
    else
      match varLoss hook d with
      | .error e => .error e
      | .ok v =>
        if v.ten.shape.prod ≠ 1 then .error .torch
        else backwardAll p (rec.reaches node) (v.ten.get (List.replicate v.ten.shape.length 0)) p.count 0 g

/-- The loop of relax.py:347-361. -/
noncomputable def updateAll (hook : UnwrapHook (AD Ctl φ₀)) (p : Params) (rec : Recorded φ₀) :
    List NewParent → (Nat → Option (Nat → ℝ)) → Except Err (Nat → Option (Nat → ℝ))
  | [], g => .ok g
  | t :: ts, g =>
    match updateOne hook p rec t.node g with
    | .error e => .error e
    | .ok g' => updateAll hook p rec ts g'

/-- `RELAX.update_parameters` (relax.py:335-362).  `order` lists the elements of the set of line 344 in the order in
which Python happens to iterate over them. -/
noncomputable def updateParameters (hook : UnwrapHook (AD Ctl φ₀)) (p : Params) (rec : Recorded φ₀)
    (order : List NewParent → List NewParent) (pairs : List (NewParent × Nat)) (g : Nat → Option (Nat → ℝ)) :
    Except Err (Nat → Option (Nat → ℝ)) :=
  updateAll hook p rec (order (pairs.map Prod.fst)) (fun i => if i < p.count then none else g i)

/-- The changing part of a method: `iterations`, `_estimation_pairs` and the `grad` of the control parameters.
method.py:40-41, 198. -/
structure MState where
  iterations : Nat
  pairs : List (NewParent × Nat)
  grad : Nat → Option (Nat → ℝ)

/-- `_update_parameters` (method.py:222-225). -/
noncomputable def updateMethod (hook : UnwrapHook (AD Ctl φ₀)) (p : Params) (rec : Recorded φ₀)
    (order : List NewParent → List NewParent) (s : MState) : Except Err MState :=
  match updateParameters hook p rec order s.pairs s.grad with
  | .error e => .error e
  | .ok g => .ok ⟨s.iterations + 1, [], g⟩

/-- inference.py:250-253: the loop over the stochastic nodes, as far as it concerns method `m`. -/
noncomputable def visitAll (hook : UnwrapHook (AD Ctl φ₀)) (p : Params) (rec : Recorded φ₀)
    (order : List NewParent → List NewParent) (m : Nat) : List SNode → MState → Except Err MState
  | [], s => .ok s
  | n :: ns, s =>
    if n.method = some m then
      match updateMethod hook p rec order s with
      | .error e => .error e
      | .ok s' => visitAll hook p rec order m ns s'
    else visitAll hook p rec order m ns s

/-- `backward` (inference.py:230-253) as far as it concerns the control parameters of the `RELAX` method `m`: the
surrogate loss fills `_estimation_pairs`, the backward pass gives `rec` and whatever gradients `g` of the control
parameters, and then the methods are updated.  `above` lists, for each cost, the stochastic tensors above it;
`nodeOrder` and `order` are the orders in which Python iterates over the two sets. -/
noncomputable def backwardUpdate (hook : UnwrapHook (AD Ctl φ₀)) (p : Params) (rec : Recorded φ₀)
    (nodeOrder : List SNode → List SNode) (order : List NewParent → List NewParent) (m : Nat) (pathwise : Nat → Bool)
    (above : List (List SNode)) (iterations : Nat) (g : Nat → Option (Nat → ℝ)) : Except Err MState :=
  visitAll hook p rec order m (nodeOrder above.flatten) ⟨iterations, pairsOf m pathwise above 0 0, g⟩

end

end Storch.RelaxUpdate
