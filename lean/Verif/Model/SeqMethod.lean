import Verif.Model.Importance
import Verif.Model.RaoBlackwell
import Verif.Model.SworWeight

/-!
# Gradient estimators for decoded variables (storch/method/multi_sample_reinforce.py, storch/method/rao_blackwell.py)

One variable without plates and independent dimensions, decoded by a new decoder.  Its ancestral plate is the only
plate of the program, so that the rules for several ancestral plates with the same name (seq.py:44-142) do not apply;
it is an ordinary plate here.  `log_probs` and `perturb_log_probs`, attributes of the ancestral plate, are arguments.
-/

namespace Storch
variable {α : Type _}

/-- `SeqMethod.is_pathwise(tensor, cost_node)` (multi_sample_reinforce.py:10-29) of a method with plate name `name`.  The
plates of the two tensors are given by their names and their identities as Python objects. -/
def seqPathwise (name : String) (tensor cost : List (String × Nat)) : Except Err Bool :=
  match tensor.find? (fun p => p.1 == name) with
  | none => .ok true
  | some d =>
    match cost.find? (fun p => p.1 == name) with
    | none => .error .value
    | some c => .ok (!(c.2 == d.2))

/-- `v[(slice(None),) * p + (i,)]` on torch tensors.  Used at rao_blackwell.py:26-30. -/
def Ten.selectDim (v : Ten α) (p i : Nat) : Except Err (Ten α) :=
  match v.shape[p]? with
  | none => .error .index
  | some d => if i < d then .ok ⟨v.shape.eraseIdx p, fun idx => v.get (idx.insertIdx p i)⟩ else .error .index

/-- `z[(slice(None),) * p + (i,)] = row` on torch tensors: `row` is broadcast and converted to the type of the elements of
`z` by `cast`.  Used at rao_blackwell.py:30. -/
def Ten.setDim (cast : α → α) (z : Ten α) (p i : Nat) (row : Ten α) : Except Err (Ten α) :=
  match z.shape[p]? with
  | none => .error .index
  | some d =>
    if i < d then
      if Ten.bshapes [z.shape.eraseIdx p, row.shape] = some (z.shape.eraseIdx p) then
        .ok ⟨z.shape, fun idx => if idx[p]? = some i then cast (row.get (Ten.bidx row.shape (idx.eraseIdx p))) else z.get idx⟩
      else .error .torch
    else .error .index

variable [ValEq α]

/-- `RaoBlackwellSF.estimator(tensor, cost)` (rao_blackwell.py:17-32).  `logProbs` is `cost_plate.log_probs`; `zeros` has the
type of the elements of the sample, to which `cast` converts.  `zeros[slize] = ...` writes into the tensor itself: the
wrapped `__setitem__` (tensor.py:326-328) unwraps it as it is, because all collected plates are its own. -/
def rbEstimator [CommRing α] (hook : UnwrapHook α) (cast : α → α) (k : Nat) (name : String) (logProbs : Ten α)
    (tensor cost : STen α) : Except Err (Option (Operand α) × Option (Operand α)) :=
  match opSt hook (fun _ => 0) [cost] with
  | .error e => .error e
  | .ok zeros =>
    match tensor.getPlate name with
    | .error e => .error e
    | .ok plate =>
      if plate.n = k then
        match tensor.plateDimIndex name with
        | .error e => .error e
        | .ok index =>
          match logProbs.selectDim index (k - 1) with
          | .error e => .error e
          | .ok row =>
            match zeros.ten.setDim cast index (k - 1) row with
            | .error e => .error e
            | .ok t => .ok (some (.st ⟨t, zeros.plates, zeros.plateDims⟩ false), none)
      else .ok (some (.st zeros false), none)

/-- `RaoBlackwellizedSample.weighting_function` (mapo.py:84-102) on elements that are differentiated: the weight of the
sample is detached, those of the values that are summed over are not. -/
def weightRBElts [CommRing α] [Autograd α] (k : Nat) (logProbs : List α) : List α :=
  if logProbs.length = k then
    let probs := logProbs.dropLast.map Autograd.exp
    probs ++ [1 - Autograd.detach probs.sum]
  else logProbs.map Autograd.exp

/-- A vector as a torch tensor.
In place of the one-dimensional tensors of mapo.py:93-102 and swor.py:192-207. -/
def Ten.vec [Zero α] (l : List α) : Ten α := ⟨[l.length], fun idx => l.getD (idx.headD 0) 0⟩

/-- The stochastic tensor made of the decoded values and its plate with the weights (seq.py:225-247, method.py:134-136). -/
def decodedTensor [Zero α] (name : String) (values weights : List α) : Except Err (STen α × Plate α) :=
  let plate := Plate.mk name values.length (.storch (Ten.vec weights) [name]) .plain []
  match STen.mk' (Ten.vec values) [plate] with
  | .error e => .error e
  | .ok t => .ok (t, plate)

section
variable {E : Type _} {θ₀ : E}

/-- The log-probability of the value `t` as an element that is differentiated: an entry of `distr.log_prob(...)`
(seq.py:473-474). -/
def logProbElt (logp : E → Nat → ℝ) (t : Nat) : AD E θ₀ := fun θ => logp θ t

/-- `compute_iw(plate, biased)` (swor.py:192-207) on elements that are differentiated.  `kappa` is the last perturbed
log-probability; the sum of the weights is not zero in the reachable states, see `C47_partial`. -/
noncomputable def computeIwElts (logProbs : List (AD E θ₀)) (kappa : WithBot ℝ) (biased : Bool) : List (AD E θ₀) :=
  let iw := (logProbs.map (fun l => Autograd.exp l / AD.const (Decode.inclusion l.val kappa + Decode.EPS))).set
    (logProbs.length - 1) 0
  if biased then iw.map (fun w => w / Autograd.detach iw.sum) else iw

/-- `ScoreFunctionWOR.estimator(tensor, cost_node)` (multi_sample_reinforce.py:46-75).  `logProbs` and `kappa` belong to the
plate of the cost. -/
noncomputable def worEstimator (hook : UnwrapHook (AD E θ₀)) (name : String) (biased useBaseline : Bool)
    (logProbs : List (AD E θ₀)) (kappa : WithBot ℝ) (cost : STen (AD E θ₀)) :
    Except Err (Option (Operand (AD E θ₀)) × Option (Operand (AD E θ₀))) := do
  let plate ← cost.getPlate name
  let over := fun l => (⟨Ten.vec l, [plate], 1⟩ : STen (AD E θ₀))
  if useBaseline then
    let iw := over (computeIwElts logProbs kappa false)
    let weighted ← opSt hook List.prod [iw, cost]
    let bs ← storchSum hook weighted name
    let probs := over (logProbs.map Autograd.exp)
    if biased then
      let ws ← storchSum hook iw name
      let rest ← opSt hook subElts [ws, iw]
      let sum ← opSt hook List.sum [rest, probs]
      let wis ← opSt hook detachElts [sum]
      let mean ← opSt hook divElts [bs, ws]
      let diff ← opSt hook subElts [cost, mean]
      let ratio ← opSt hook divElts [iw, wis]
      let fixed ← opSt hook detachElts [diff]
      let terms ← opSt hook List.prod [ratio, fixed]
      let total ← storchSum hook terms name
      return (some (.st total false), none)
    else
      let others ← opSt hook (fun xs => 1 - xs.headD 0) [probs]
      let scale ← opSt hook List.sum [others, iw]
      let scaled ← opSt hook List.prod [cost, scale]
      let diff ← opSt hook subElts [scaled, bs]
      let fixed ← opSt hook detachElts [diff]
      let terms ← opSt hook List.prod [iw, fixed]
      let total ← storchSum hook terms name
      return (some (.st total false), none)
  else
    let iw := over (computeIwElts logProbs kappa biased)
    let fixed ← opSt hook detachElts [cost]
    let terms ← opSt hook List.prod [fixed, iw]
    let total ← storchSum hook terms name
    return (some (.st total false), none)

/-- `x = RaoBlackwellSF(name, k)(P)`, `add_cost(f(x))` for each cost and `surrogate_loss()`, for a variable with `dom`
values and log-probabilities `logp θ`; the decoder runs with their current values, and the cost has the plate object of the
variable (rao_blackwell.py:13-32, mapo.py:41-102,
inference.py:105-206). -/
noncomputable def rbLoss (hook : UnwrapHook (AD E θ₀)) (cast : AD E θ₀ → AD E θ₀) (top : Nat → List ℝ → List Nat)
    (amax : List (WithBot ℝ) → Nat) (low : WithBot ℝ) (k : Nat) (name : String) (dom : Nat) (logp : E → Nat → ℝ)
    (noise : Nat → Nat → Nat → WithBot ℝ) (costs : List (E → ℝ → ℝ)) : Except Err (STen (AD E θ₀)) := do
  let s ← Decode.runRB top amax low k none [(⟨dom, [], false, fun _ _ t => logp θ₀ t⟩, noise)]
  let tokens := s.sequences.map (fun ts => ts.headD 0)
  let logProbs : List (AD E θ₀) := tokens.map (logProbElt logp)
  let (x, _) ← decodedTensor name (tokens.map (fun t : Nat => AD.const (t : ℝ))) (weightRBElts k logProbs)
  let pathwise ← seqPathwise name [(name, 0)] [(name, 0)]
  let cs ← importanceCosts hook x ⟨x, pathwise, rbEstimator hook cast k name (Ten.vec logProbs)⟩ costs
  surrogateLoss hook cs

/-- The part of `worLoss` after decoding, for the decoded values `tokens` and the last perturbed log-probability
(multi_sample_reinforce.py:46-75, swor.py:185-207). -/
noncomputable def worLossOf (hook : UnwrapHook (AD E θ₀)) (name : String) (biased useBaseline : Bool) (logp : E → Nat → ℝ)
    (tokens : List Nat) (kappa : WithBot ℝ) (costs : List (E → ℝ → ℝ)) : Except Err (STen (AD E θ₀)) := do
  let logProbs : List (AD E θ₀) := tokens.map (logProbElt logp)
  let (x, _) ← decodedTensor name (tokens.map (fun t : Nat => AD.const (t : ℝ)))
    ((computeIwElts logProbs kappa biased).map Autograd.detach)
  let pathwise ← seqPathwise name [(name, 0)] [(name, 0)]
  let cs ← importanceCosts hook x ⟨x, pathwise, fun _ cost => worEstimator hook name biased useBaseline logProbs kappa cost⟩ costs
  surrogateLoss hook cs

/-- `x = ScoreFunctionWOR(name, k, biased, use_baseline)(P)`, `add_cost(f(x))` for each cost and `surrogate_loss()`, for a
variable with `dom` values and log-probabilities `logp θ`; `k`, with the sample that gives `kappa`, is at least two
(multi_sample_reinforce.py:38-75, swor.py:20-110, 185-207). -/
noncomputable def worLoss (hook : UnwrapHook (AD E θ₀)) (name : String) (biased useBaseline : Bool)
    (topk : Nat → List (WithBot ℝ) → List ℝ → List Nat) (k dom : Nat) (logp : E → Nat → ℝ)
    (noise : Nat → Nat → Nat → WithBot ℝ) (costs : List (E → ℝ → ℝ)) : Except Err (STen (AD E θ₀)) := do
  if k < 2 then throw .value
  let s ← Decode.runSwor k none topk [(⟨dom, [], false, fun _ _ t => logp θ₀ t⟩, noise)] Decode.blank
  match s.perturbed.bind List.getLast? with
  | none => .error .index
  | some kappa => worLossOf hook name biased useBaseline logp (s.sequences.map (fun ts => ts.headD 0)) kappa costs

end

end Storch
