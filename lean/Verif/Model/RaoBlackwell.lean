import Verif.Model.Decode
import Verif.Model.Gumbel

/-!
# Rao-Blackwellised sampling (storch/sampling/mapo.py:41-102)
-/

namespace Storch.Decode

variable {α : Type _}

/-- `torch.scatter(g, -1, over, low)` (mapo.py:73). -/
def scatterLow (low : WithBot α) (over : List Nat) (g : List (WithBot α)) : List (WithBot α) :=
  g.zipIdx.map (fun e => if e.2 ∈ over then low else e.1)

/-- The indices chosen by `RaoBlackwellizedSample.select_samples` (mapo.py:55-81) among `g`, the perturbed
log-probabilities, and `j`, the joint log-probabilities; `m` is `min(self.k, len)`.  `top m j` are the indices returned by
`torch.topk`, `amax` the index returned by `torch.max`; `low` is `-1e10`. -/
def rbSelect (top : Nat → List α → List Nat) (amax : List (WithBot α) → Nat) (low : WithBot α) (k : Nat)
    (m : Nat) (g : List (WithBot α)) (j : List α) : List Nat :=
  let over := top (min (k - 1) m) j
  if m = k then over ++ [amax (scatterLow low over g)] else over

/-- `RaoBlackwellizedSample.__init__` (mapo.py:46-53) calls `SampleWithoutReplacement.__init__(plate_name, k, eos)`, whose
third parameter is `biased_iw` (swor.py:21): the end-of-sequence token does not arrive.  `none` for `k < 2`
(swor.py:23-26). -/
def constructRB (k : Nat) (eos : Option Nat) : Except Err (Cls α) :=
  if k < 2 then .error .value
  else .ok (.swor k none (match eos with | none => false | some e => decide (e ≠ 0)))

/-- `RaoBlackwellizedSample.weighting_function` (mapo.py:84-102) for one row of the other plates. -/
noncomputable def weightRB (k : Nat) (p : APlate ℝ) : List ℝ :=
  if p.logProbs.length = k then
    let probs := p.logProbs.dropLast.map Real.exp
    probs ++ [1 - probs.sum]
  else p.logProbs.map Real.exp

/-- Variables decoded one after the other with a new `RaoBlackwellizedSample(plate_name, k, eos)`: the inherited decoder
with its own selection.
No Python counterpart: a user program that calls seq.py:175 with the overrides of mapo.py:41-102. -/
def runRB [Add α] (top : Nat → List α → List Nat) (amax : List (WithBot α) → Nat) (low : WithBot α) (k : Nat)
    (eos : Option Nat) (vs : List (Var α × (Nat → Nat → Nat → WithBot α))) : Except Err (St α) :=
  match constructRB (α := α) k eos with
  | .error e => .error e
  | .ok (.swor k' eos' _) => runSwor k' eos' (rbSelect top amax low k') vs blank
  | .ok _ => .error .type

end Storch.Decode
