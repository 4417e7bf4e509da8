import Verif.Model.Reduce
import Verif.Model.AD

/-!
# The surrogate loss (storch/inference.py:105-206), `magic_box` (storch/util.py:21-28), the score function
(storch/method/method.py:554-575) and its baselines (storch/method/baseline.py)

The tensors are values; which stochastic tensors the walk over the graph yields, and in which order, is
modelled in `Verif.Model.World` and `Verif.Model.Graph`.  Here the loop gets the list of those that
require a gradient and have a method.  The links made for the copies of the stochastic tensors
(inference.py:177-181) do not influence the computed values and are left out.
-/

namespace Storch
variable {α : Type _} [ValEq α]

/-- A torch element-wise function called on storch or torch tensors; the result is a torch tensor when no
argument is a storch tensor.  tensor.py:243-268. -/
def opCall (hook : UnwrapHook α) (f : List α → α) (ops : List (Operand α)) : Except Err (Operand α) :=
  match handleDet hook false false {} (elementwiseFn f) (opArgs ops) with
  | .ok (.st r s) => .ok (.st r s)
  | .ok (.torch t) => .ok (.torch t)
  | .ok _ => .error .type
  | .error e => .error e

/-- `torch.exp` on the elements of one tensor.  Used at util.py:28. -/
def expElts [Zero α] [Autograd α] : List α → α
  | [a] => Autograd.exp a
  | _ => 0

/-- `detach` on the elements of one tensor.  Used at util.py:28. -/
def detachElts [Zero α] [Autograd α] : List α → α
  | [a] => Autograd.detach a
  | _ => 0

/-- `magic_box(l) = torch.exp(l - l.detach())` (util.py:21-28). -/
def magicBox [Ring α] [Autograd α] (hook : UnwrapHook α) (l : Operand α) : Except Err (Operand α) :=
  match opCall hook detachElts [l] with
  | .error e => .error e
  | .ok d =>
    match opCall hook subElts [l, d] with
    | .error e => .error e
    | .ok s => opCall hook expElts [s]

/-- inference.py:146-149: reduce the plates of the cost that the stochastic tensor does not have, with
detached weights. -/
def reduceMissing [Semiring α] [Autograd α] (hook : UnwrapHook α) (pp : List (Plate α)) :
    List (Plate α) → STen α → Except Err (STen α)
  | [], c => .ok c
  | p :: ps, c =>
    if p.isInMethod pp then reduceMissing hook pp ps c
    else
      match p.reduce hook Autograd.detach c with
      | .error e => .error e
      | .ok c' => reduceMissing hook pp ps c'

/-- inference.py:143-149. -/
def reducedCost [Semiring α] [Autograd α] (hook : UnwrapHook α) (c parent : STen α) :
    Except Err (STen α) :=
  match orderPlates c.multiDimPlates true with
  | .error e => .error e
  | .ok order => reduceMissing hook parent.multiDimPlates order c

/-- inference.py:150-159: bring the plate dimensions of the stochastic tensor into the order of the
reduced cost. -/
def transposeLoop : List (Plate α) → Nat → Ten α → List (Plate α) → Except Err (Ten α × List (Plate α))
  | [], _, t, pp => .ok (t, pp)
  | p :: ps, i, t, pp =>
    match p.indexIn pp with
    | .error e => .error e
    | .ok j =>
      if i ≠ j then
        match t.transpose j i with
        | .error e => .error e
        | .ok t' => transposeLoop ps (i + 1) t' (swapAt pp j i)
      else transposeLoop ps (i + 1) t pp

/-- inference.py:160-163: append the plates of size one. -/
def appendMissing (pp : List (Plate α)) : List (Plate α) → List (Plate α)
  | [] => pp
  | p :: ps => appendMissing (if p.isInMethod pp then pp else pp ++ [p]) ps

/-- inference.py:143-176: the copy of the stochastic tensor that is passed to the estimator. -/
def newParent (parent rc : STen α) : Except Err (STen α) :=
  match transposeLoop rc.multiDimPlates 0 parent.ten parent.multiDimPlates with
  | .error e => .error e
  | .ok (t, pp) => STen.mk' t (appendMissing pp parent.plates)

/-- A stochastic tensor with its method, as far as the surrogate loss uses it: the sampled values,
`method.is_pathwise(parent, c)` and `method._estimator(new_parent, reduced_cost)`, which returns the
gradient function and the control variate.  inference.py:132-186. -/
structure Sampled (α : Type _) where
  tensor : STen α
  pathwise : Bool
  estimator : STen α → STen α → Except Err (Option (Operand α) × Option (Operand α))

/-- The operand of a call that must be a storch tensor or a torch tensor with explicit plates.
storch.py:107-128 as called at inference.py:193-202. -/
def reduceAllPlates [Semiring α] (hook : UnwrapHook α) (x : Operand α) : Except Err (STen α) :=
  reducePlates hook id x []

/-- `tensor.squeeze(0)` on torch tensors.  Used at inference.py:198. -/
def squeeze0 (t : Ten α) : Ten α :=
  match t.shape with
  | 1 :: s => ⟨s, fun idx => t.get (0 :: idx)⟩
  | _ => t

/-- `squeeze(0)` as a torch function.  inference.py:198. -/
def squeeze0Fn : Fn α := fun a =>
  match a.pos with
  | [.torch t, .other 0] => .ok (.torch (squeeze0 t))
  | _ => .error .type

/-- inference.py:197-198: `if final_A.ndim == 1: final_A = final_A.squeeze(0)`. -/
def squeezeScalar (hook : UnwrapHook α) (t : STen α) : Except Err (STen α) :=
  if t.ten.ndim = 1 then
    asSt (handleDet hook false false {} squeeze0Fn ⟨[.st t false, .other 0], []⟩)
  else .ok t

/-- inference.py:188-199: the part of the loop body that follows the call of the estimator.  The state is
`L` and `surrogate_loss_c`; the initial number 0.0 of the latter is a 0-dimensional torch tensor here. -/
def addEstimate [CommRing α] [Autograd α] (hook : UnwrapHook α)
    (est : Option (Operand α) × Option (Operand α)) (st : Operand α × Operand α) :
    Except Err (Operand α × Operand α) :=
  match (match est.1 with
    | none => Except.ok st.1
    | some g => opCall hook List.sum [st.1, g]) with
  | .error e => .error e
  | .ok l =>
    match est.2 with
    | none => .ok (l, st.2)
    | some cv =>
      match magicBox hook l with
      | .error e => .error e
      | .ok b =>
        match opCall hook List.prod [b, cv] with
        | .error e => .error e
        | .ok a =>
          match reduceAllPlates hook a with
          | .error e => .error e
          | .ok f =>
            match squeezeScalar hook f with
            | .error e => .error e
            | .ok f' =>
              match opCall hook List.sum [st.2, .st f' false] with
              | .error e => .error e
              | .ok s => .ok (l, s)

/-- inference.py:132-199: the loop over the stochastic tensors above the cost `c`. -/
def parentLoop [CommRing α] [Autograd α] (hook : UnwrapHook α) (c : STen α) :
    List (Sampled α) → Operand α × Operand α → Except Err (Operand α × Operand α)
  | [], st => .ok st
  | p :: ps, st =>
    if p.pathwise then parentLoop hook c ps st
    else
      match reducedCost hook c p.tensor with
      | .error e => .error e
      | .ok rc =>
        match newParent p.tensor rc with
        | .error e => .error e
        | .ok np =>
          match p.estimator np rc with
          | .error e => .error e
          | .ok est =>
            match addEstimate hook est st with
            | .error e => .error e
            | .ok st' => parentLoop hook c ps st'

/-- inference.py:128-202: the surrogate loss of one cost. -/
def surrogateCost [CommRing α] [Autograd α] (hook : UnwrapHook α) (c : STen α)
    (parents : List (Sampled α)) : Except Err (Operand α) :=
  match parentLoop hook c parents (.torch (.scalar 0), .torch (.scalar 0)) with
  | .error e => .error e
  | .ok (l, s) =>
    match magicBox hook l with
    | .error e => .error e
    | .ok b =>
      match opCall hook List.prod [b, .st c false] with
      | .error e => .error e
      | .ok a =>
        match reduceAllPlates hook a with
        | .error e => .error e
        | .ok f => opCall hook List.sum [s, .st f false]

/-- The loop over the costs (inference.py:113-204). -/
def surrogateCosts [CommRing α] [Autograd α] (hook : UnwrapHook α) :
    List (STen α × List (Sampled α)) → Except Err (List (Operand α))
  | [] => .ok []
  | (c, ps) :: cs =>
    match surrogateCost hook c ps with
    | .error e => .error e
    | .ok s =>
      match surrogateCosts hook cs with
      | .error e => .error e
      | .ok r => .ok (s :: r)

/-- `torch.stack(tensors)` on torch tensors: all shapes have to be equal.  inference.py:205. -/
def stackFn : Fn α := fun a =>
  match a.pos with
  | [.lst vs] =>
    match vs.mapM Val.asTorch with
    | none => .error .type
    | some [] => .error .torch
    | some (t :: ts) =>
      if ts.all (fun u => u.shape == t.shape) then
        .ok (.torch ⟨(t :: ts).length :: t.shape, fun idx =>
          match idx with
          | i :: idx' => ((t :: ts).getD i t).get idx'
          | [] => t.get []⟩)
      else .error .torch
  | _ => .error .type

/-- `torch.sum(tensor)` on torch tensors: the sum of all elements.  inference.py:205. -/
def sumAllFn [AddCommMonoid α] : Fn α := fun a =>
  match a.pos with
  | [.torch t] => .ok (.torch (.scalar ((allIdx t.shape).map t.get).sum))
  | _ => .error .type

/-- `surrogate_loss()` (inference.py:105-206): `RuntimeError` without costs, otherwise
`torch.sum(torch.stack(surrogate_losses))`. -/
def surrogateLoss [CommRing α] [Autograd α] (hook : UnwrapHook α)
    (costs : List (STen α × List (Sampled α))) : Except Err (STen α) :=
  match costs with
  | [] => .error .runtime
  | _ :: _ =>
    match surrogateCosts hook costs with
    | .error e => .error e
    | .ok ls =>
      match asSt (handleDet hook false false {} stackFn ⟨[.lst (ls.map Operand.val)], []⟩) with
      | .error e => .error e
      | .ok st => asSt (handleDet hook false false {} sumAllFn ⟨[.st st false], []⟩)

/-! ### The score function -/

/-- What `baseline_factory` selects (method.py:538-552).  The moving average comes with the values of its
buffers before the call. -/
inductive Baseline (α : Type _)
  | movingAverage (decay average : α)
  | batchAverage

/-- `decay * moving_average + (1 - decay) * avg_cost` (baseline.py:30-33) on the elements. -/
def movingElts [Ring α] (decay average : α) : List α → α
  | [c] => decay * average + (1 - decay) * c
  | _ => 0

/-- `(sum_costs - costs) / (n - 1)` (baseline.py:53) on the elements; `inv` is `1 / (n - 1)`. -/
def looElts [Ring α] (inv : α) : List α → α
  | [s, c] => (s - c) * inv
  | _ => 0

/-- `(1 - box) * baseline` (method.py:573) on the elements. -/
def oneMinusElts [Ring α] : List α → α
  | [b, x] => (1 - b) * x
  | _ => 0

/-- `compute_baseline(tensor, cost)` (baseline.py:26-54); `n` and `name` are those of the stochastic
tensor, `inv m` is `1 / m` on the elements. -/
def computeBaseline [CommRing α] [Autograd α] (hook : UnwrapHook α) (inv : Nat → α) (n : Nat)
    (name : String) (cost : STen α) : Baseline α → Except Err (Operand α)
  | .movingAverage decay average =>
    match reducePlates hook Autograd.detach (.st cost false) [] with
    | .error e => .error e
    | .ok avg =>
      match opCall hook detachElts [.st avg false] with
      | .error e => .error e
      | .ok d =>
        match opCall hook (movingElts decay average) [d] with
        | .error e => .error e
        | .ok (.st r _) => .ok (.torch r.ten)
        | .ok (.torch _) => .error .attribute
  | .batchAverage =>
    if n = 1 then .error .value
    else
      match opCall hook detachElts [.st cost false] with
      | .error e => .error e
      | .ok (.torch _) => .error .type
      | .ok (.st d s) =>
        match storchSum hook d name with
        | .error e => .error e
        | .ok sum => opCall hook (looElts (inv (n - 1))) [.st sum false, .st d s]

/-- `ScoreFunction.estimator(tensor, cost)` (method.py:554-575).  `logProb` is
`tensor.distribution.log_prob`; the dimensions after the plates are summed out. -/
def scoreEstimator [CommRing α] [Autograd α] (hook : UnwrapHook α) (inv : Nat → α)
    (logProb : STen α → Except Err (STen α)) (n : Nat) (name : String) (baseline : Option (Baseline α))
    (tensor cost : STen α) : Except Err (Option (Operand α) × Option (Operand α)) :=
  match logProb tensor with
  | .error e => .error e
  | .ok lp0 =>
    match (if tensor.plateDims < lp0.ten.ndim then
        asSt (handleDet hook false false {} (sumBlockFn tensor.plateDims (lp0.ten.ndim - tensor.plateDims))
          ⟨[.st lp0 false, .lst ((List.range (lp0.ten.ndim - tensor.plateDims)).map
            (fun i => .other (tensor.plateDims + i)))], []⟩)
      else .ok lp0) with
    | .error e => .error e
    | .ok lp =>
      match baseline with
      | none => .ok (some (.st lp false), none)
      | some b =>
        match computeBaseline hook inv n name cost b with
        | .error e => .error e
        | .ok base =>
          match magicBox hook (.st lp false) with
          | .error e => .error e
          | .ok box =>
            match opCall hook oneMinusElts [box, base] with
            | .error e => .error e
            | .ok cv => .ok (some (.st lp false), some cv)

/-- A tensor sampled with `ScoreFunction`.  method.py:512-575, inference.py:166-186. -/
def scoreSampled [CommRing α] [Autograd α] (hook : UnwrapHook α) (inv : Nat → α)
    (logProb : STen α → Except Err (STen α)) (n : Nat) (name : String) (baseline : Option (Baseline α))
    (tensor : STen α) : Sampled α :=
  ⟨tensor, false, scoreEstimator hook inv logProb n name baseline⟩

/-- A tensor sampled with `Expect` (method.py:578-580): the estimator inherited from `Method`
(method.py:195-220) returns neither a gradient function nor a control variate. -/
def expectSampled (tensor : STen α) : Sampled α := ⟨tensor, false, fun _ _ => .ok (none, none)⟩

/-- A tensor sampled with `Reparameterization` or `GumbelSoftmax` when
`storch.CHECK_DIFFERENTIABLE_PATH` is off, as by default (method.py:325-333, 389-397, 461-471). -/
def reparamSampled (tensor : STen α) : Sampled α := ⟨tensor, true, fun _ _ => .ok (none, none)⟩

end Storch
