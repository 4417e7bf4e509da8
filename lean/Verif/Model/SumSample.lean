import Verif.Model.Decode

/-!
# `SumAndSample` (storch/sampling/swor.py:254-298)

The class is unfinished in the code; it is modelled as it is.
-/

namespace Storch.Decode
variable {α : Type _}

/-- `SumAndSample.__init__` (swor.py:260-272), with the check of the class above (swor.py:22-26).  Returns the number `k`
of samples. -/
def constructSum (sumSize sampleSize : Nat) : Except Err Nat :=
  if sumSize + sampleSize < 2 then .error .value
  else if sumSize < 1 ∨ sampleSize < 1 then .error .value
  else .ok (sumSize + sampleSize)

/-- What `SumAndSample.select_samples` returns: a pair (swor.py:287), or `None` at its end (swor.py:298). -/
inductive SumRet (α : Type _)
  | pair (perturbed : List (WithBot α)) (samples : List Nat)
  | nothing

/-- `torch.topk(l, m, dim=-1)` (swor.py:284, 294-296): raises if there are fewer than `m` elements.  `top m l` are the
indices it returns otherwise. -/
def topkChecked (top : Nat → List α → List Nat) (m : Nat) (l : List α) : Except Err (List Nat) :=
  if l.length < m then .error .torch else .ok (top m l)

/-- `SumAndSample.select_samples` (swor.py:274-298), for one row of the other plates: `g` are the perturbed
log-probabilities, `j` the joint log-probabilities.  The difference of swor.py:292 is not negative, since the lists have the
same length and are at least `sum_size` long there. -/
def selectSum (top : Nat → List α → List Nat) (sumSize sampleSize : Nat) (g : List (WithBot α)) (j : List α) :
    Except Err (SumRet α) :=
  let amtSum := min sumSize j.length
  match topkChecked top amtSum j with
  | .error e => .error e
  | .ok sumSamples =>
    match gatherL g sumSamples with
    | .error e => .error e
    | .ok sumPerturbed =>
      if amtSum < sumSize then .ok (.pair sumPerturbed sumSamples)
      else
        let amtSample := min sampleSize (g.length - sumSize)
        match topkChecked top (amtSample + g.length) j with
        | .error e => .error e
        | .ok _ => .ok .nothing

/-- `self.perturbed_log_probs, joint_log_probs, arg_top = ...` (swor.py:117-119): a pair is too short, and `None` cannot be
unpacked. -/
def SumRet.unpack : SumRet α → Except Err (List (WithBot α) × List α × List Nat)
  | .pair _ _ => .error .value
  | .nothing => .error .type

/-- `decode_step` (swor.py:34-152) of a `SumAndSample` up to the place where the selection is unpacked: as in
`decodeStep`, with the selection of this class. -/
def selectStepSum [Add α] (sumSize sampleSize : Nat) (eos : Option Nat) (top : Nat → List α → List Nat)
    (fin : Option Mask) (d : Dist α) (ev : Nat) (noise : Nat → Nat → WithBot α) (b : Beam α)
    (perturbed : Option (List (WithBot α))) : Except Err (List (WithBot α) × List α × List Nat) :=
  match allJoint d ev b with
  | .error e => .error e
  | .ok all =>
    match applyFinished eos fin perturbed d.dom
        ((List.range all.length).map (fun r => (List.range d.dom).map (noise r))) with
    | .error e => .error e
    | .ok G =>
      match selectSum top sumSize sampleSize G.flatten all.flatten with
      | .error e => .error e
      | .ok r => r.unpack

end Storch.Decode
