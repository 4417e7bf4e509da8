import Verif.Model.SeqMethod
import Verif.Model.UnorderedSet

/-!
# The unordered set estimator (storch/method/unordered.py:9-80)

One variable without plates and independent dimensions, decoded by a new decoder, as in `Model/SeqMethod.lean`.
-/

namespace Storch

section
variable {E : Type _} {θ₀ : E}

/-- `plate.log_snd_leave_one_out` (unordered_set.py:96-107) as a storch tensor over the plate with one event dimension.  It is
computed from the detached log-probabilities. -/
def secondTensor (plate : Plate (AD E θ₀)) (second : List (List ℝ)) : STen (AD E θ₀) :=
  ⟨⟨[second.length, second.length], fun idx => AD.const ((second.getD (idx.getD 0 0) []).getD (idx.getD 1 0) 0)⟩, [plate], 1⟩

/-- `UnorderedSetEstimator.estimator(tensor, cost_node)` (unordered.py:57-80): a storch tensor without the baseline, a pair with
it.  `logProbs` and `second` are attributes of the plate of the cost; a cost without the plate has already been refused by
`is_pathwise` (multi_sample_reinforce.py:10-29). -/
noncomputable def unorderedEstimator (hook : UnwrapHook (AD E θ₀)) (name : String) (useBaseline : Bool)
    (logProbs : List (AD E θ₀)) (second : List (List ℝ)) (cost : STen (AD E θ₀)) :
    Except Err (STen (AD E θ₀) ⊕ (Option (Operand (AD E θ₀)) × Option (Operand (AD E θ₀)))) := do
  let plate ← cost.getPlate name
  let lp : STen (AD E θ₀) := ⟨Ten.vec logProbs, [plate], 1⟩
  if useBaseline then
    let logs ← opSt hook List.sum [lp, secondTensor plate second]
    let probs ← opSt hook expElts [logs]
    let terms ← opSt hook List.prod [probs, cost]
    let total ← storchSum hook terms name
    let baseline ← STen.mk' total.ten (total.plates ++ [plate])
    let box ← magicBox hook (.st lp false)
    let rest ← opCall hook (fun xs => 1 - xs.headD 0) [box]
    let fixed ← opSt hook detachElts [baseline]
    let cv ← opCall hook List.prod [rest, .st fixed false]
    return .inr (some (.st lp false), some cv)
  else
    let fixed ← opSt hook detachElts [cost]
    let score ← opSt hook List.prod [lp, fixed]
    return .inl score

/-- `(gradient_function, control_variate,) = parent.method._estimator(...)` (inference.py:184-186): a storch tensor cannot be
iterated over (tensor.py:639-641). -/
def unpackPair {α : Type _} (r : STen α ⊕ (Option (Operand α) × Option (Operand α))) :
    Except Err (Option (Operand α) × Option (Operand α)) :=
  match r with
  | .inl _ => .error .notImplemented
  | .inr p => .ok p

/-- The part of `unorderedLoss` after decoding, for the decoded values `tokens`, their weights and second leave-one-out ratios
(unordered.py:57-80, inference.py:105-206). -/
noncomputable def unorderedLossOf (hook : UnwrapHook (AD E θ₀)) (name : String) (useBaseline : Bool) (logp : E → Nat → ℝ)
    (tokens : List Nat) (weights : List ℝ) (second : List (List ℝ)) (costs : List (E → ℝ → ℝ)) :
    Except Err (STen (AD E θ₀)) := do
  let (x, _) ← decodedTensor name (tokens.map (fun t : Nat => AD.const (t : ℝ))) (weights.map AD.const)
  let pathwise ← seqPathwise name [(name, 0)] [(name, 0)]
  let cs ← importanceCosts hook x ⟨x, pathwise, fun _ cost => do
    unpackPair (← unorderedEstimator hook name useBaseline (tokens.map (logProbElt logp)) second cost)⟩ costs
  surrogateLoss hook cs

/-- `x = UnorderedSetEstimator(name, k, use_baseline, num_int_points=N, a=a)(P)`, `add_cost(f(x))` for each cost and
`surrogate_loss()`, for a variable with `dom` values and log-probabilities `logp θ` (unordered.py:23-80, unordered_set.py:12-110,
swor.py:21-27).  Not-a-number weights (`N = 1`) are not followed: an error stands for them. -/
noncomputable def unorderedLoss (hook : UnwrapHook (AD E θ₀)) (name : String) (useBaseline : Bool) (a : ℝ) (N : Nat)
    (topk : Nat → List (WithBot ℝ) → List ℝ → List Nat) (k dom : Nat) (logp : E → Nat → ℝ)
    (noise : Nat → Nat → Nat → WithBot ℝ) (costs : List (E → ℝ → ℝ)) : Except Err (STen (AD E θ₀)) := do
  if k < 2 then throw .value
  let s ← Decode.runSwor k none topk [(⟨dom, [], false, fun _ _ t => logp θ₀ t⟩, noise)] Decode.blank
  let p ← match s.plates with
    | [] => .error .attribute
    | p :: _ => .ok p
  let weights ← match Decode.weightUnordered a N p with
    | .error e => .error e
    | .ok none => .error .value
    | .ok (some w) => .ok w
  let tokens := s.sequences.map (fun ts => ts.headD 0)
  unorderedLossOf hook name useBaseline logp tokens weights (Decode.logSnd a N p.logProbs) costs

end

end Storch
