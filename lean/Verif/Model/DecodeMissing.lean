import Verif.Model.DecodePlates

/-!
# Decoding a variable whose distribution lacks plates of the variables before (storch/sampling/seq.py:381-611)

The joint log-probabilities of the variables decoded before have the plates `d.ps ++ rest`; the distribution has the plates
`d.ps` only.  That these come first, in the same order, is the case of `C85_orders_partial`: all tensors then have the order of
the joint log-probabilities, and the wrappers around the torch functions only insert dimensions of size one for the plates of
`rest` (wrappers.py:95-127).
-/

namespace Storch.Decode

variable {α β : Type _}

/-- The dimensions of size one that the wrappers insert for `Q` plates after the first `P` (wrappers.py:107-112). -/
def alignMissing (P Q : Nat) (t : Ten β) : Ten β :=
  ⟨t.shape.take P ++ List.replicate Q 1 ++ t.shape.drop P, fun idx => t.get (idx.take P ++ idx.drop (P + Q))⟩

/-- `support[(slice(None),) * P + (None,) * len(rest)].expand(...)` (seq.py:518-531): the same values for all indices of the
plates in `rest`. -/
def expandMissing (P : Nat) (rest : List Nat) (t : Ten β) : Ten β :=
  ⟨t.shape.take P ++ rest ++ t.shape.drop P, fun idx => t.get (idx.take P ++ idx.drop (P + rest.length))⟩

/-- `all_joint_log_probs` (swor.py:61-87) for a later variable, where `yv` lacks the last `Q` of the `P + Q` plates.  In line 84-86
torch adds `plates x n x 1` and `plates x 1 x |D|`, with size one for the missing plates.  In line 68-75 `gather` wants the index
to be no larger than the input in the other dimensions. -/
def allJointM [Add α] (P Q : Nat) (cond : Bool) (yv : Ten α) (j : Ten α) (b : BeamT α) : Except Err (Ten α) :=
  if cond then
    match b.parentIdx with
    | none => .error .type
    | some pi =>
      let y0 := alignMissing P Q yv
      match gatherT y0 (P + Q) (rightExpand (narrowLast pi b.amt) y0.shape) with
      | .error e => .error e
      | .ok y => if j.shape = y.shape.dropLast then .ok ⟨y.shape, fun idx => j.get idx.dropLast + y.get idx⟩ else .error .torch
  else if j.shape.take P = yv.shape.dropLast ∧ j.shape.length = P + Q + 1 then
    .ok ⟨j.shape ++ (yv.shape.getLast?).toList, fun idx => j.get idx.dropLast + yv.get (idx.take P ++ idx.drop (P + Q + 1))⟩
  else .error .torch

/-- `decode_step` (swor.py:34-173) for a later variable that lacks plates. -/
def decodeStepM [Add α] (P Q k : Nat) (eos : Option Nat) (tk : List Nat → Nat → List (WithBot α) → List α → List Nat)
    (fin : Option (Ten Bool)) (cond : Bool) (indices : List Nat) (yv : Ten α) (noise : List Nat → Nat → Nat → WithBot α)
    (b : BeamT α) (perturbed : Option (Ten (WithBot α))) : Except Err (BeamT α × Ten (WithBot α)) :=
  match b.joint with
  | none => .error .type
  | some j =>
    match allJointM P Q cond yv j b with
    | .error e => .error e
    | .ok all => chooseT (P + Q) k eos tk fin indices (yv.shape.getLast?.getD 0) noise b perturbed all

/-- The loop of seq.py:584-602. -/
def decodeLoopM [Add α] (P Q k : Nat) (eos : Option Nat) (tk : List Nat → Nat → List (WithBot α) → List α → List Nat)
    (fin : Option (Ten Bool)) (cond : Bool) (d : Ten α) (events : List Nat) (noise : List Nat → Nat → Nat → Nat → WithBot α) :
    List Nat → BeamT α → Option (Ten (WithBot α)) → Except Err (BeamT α × Option (Ten (WithBot α)))
  | [], b, p => .ok (b, p)
  | ev :: evs, b, p =>
    match decodeStepM P Q k eos tk fin cond (Ten.unravel events ev) (eventAt d (Ten.unravel events ev))
        (fun ix => noise ix ev) b p with
    | .error e => .error e
    | .ok (b', p') => decodeLoopM P Q k eos tk fin cond d events noise evs b' (some p')

/-- `IterDecoding.decode` (seq.py:381-611) for a later variable, as `decodeT`, where the variables before have the plates `rest`
besides those of the distribution.  A distribution that depends on samples of the decoder depends on those of the newest
variable (seq.py:487), through a function that has removed the plates. -/
def decodeM [Add α] {V : Type _} (k : Nat) (eos : Option Nat) (tk : List Nat → Nat → List (WithBot α) → List α → List Nat)
    (fin : Option (Ten Bool)) (d : DistT α V) (rest : List Nat) (noise : List Nat → Nat → Nat → Nat → WithBot α) (joint : Ten α)
    (perturbed : Option (Ten (WithBot α))) :
    Except Err (Ten Nat × Ten V × Option (Ten α) × Option (Ten Nat) × Option (Ten (WithBot α))) :=
  match d.logProbs with
  | .error e => .error e
  | .ok lp =>
    match d.values with
    | .error e => .error e
    | .ok support =>
      if k < joint.shape.getLast?.getD 0 then .error .torch
      else
        match decodeLoopM d.ps.length rest.length k eos tk fin d.place.isSome lp d.events noise (List.range (Ten.numel d.events))
            (startBeamT (d.ps ++ rest) k d.events (some joint)) perturbed with
        | .error e => .error e
        | .ok (b, p) =>
          let tokens := if b.amt < k then narrowLast b.sampled b.amt else b.sampled
          let support' := expandMissing d.ps.length rest support
          match gatherT support' (d.ps.length + rest.length) (rightExpand tokens support'.shape) with
          | .error e => .error e
          | .ok sample => .ok (tokens, sample, b.joint, b.parentIdx, p)

end Storch.Decode
