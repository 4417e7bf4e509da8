import Verif.Model.Decode
import Verif.Model.Plate
import Verif.Model.SeqMethod

/-!
# Decoding over plates (storch/sampling/seq.py:381-611, storch/sampling/swor.py:34-173)

The tensors of `IterDecoding.decode` with all their dimensions.  The plates with more than one sample, other than that of
the decoder, have the sizes `ps`; there are `P = len(ps)` of them.  The distribution carries all plates of the variables
decoded before, in the same order, so that the wrappers around the torch functions (modelled in `Verif.Model.Wrap`) leave all
tensors as they are; they are plain torch tensors here.  A distribution that depends on samples of the decoder depends on
those of the newest variable, so that `on_unwrap_tensor` (seq.py:487) returns the log-probabilities as they are.
-/

namespace Storch.Decode

variable {α β : Type _}

/-- `tensor.permute(dims)`.  Used at seq.py:462-472, 493-504, 511-517. -/
def permuteT (t : Ten β) (dims : List Nat) : Except Err (Ten β) :=
  if dims.Perm (List.range t.ndim) then
    .ok ⟨dims.map (fun d => t.shape.getD d 0), fun idx =>
      t.get ((List.range t.ndim).map (fun d => idx.getD (dims.idxOf d) 0))⟩
  else .error .torch

/-- `input.gather(dim, index)`.  Used at seq.py:610, swor.py:68-75, 131-146, 171. -/
def gatherT (input : Ten β) (dim : Nat) (index : Ten Nat) : Except Err (Ten β) :=
  match input.shape[dim]? with
  | none => .error .index
  | some d =>
    if index.shape.length = input.shape.length ∧
        ((index.shape.eraseIdx dim).zip (input.shape.eraseIdx dim)).all (fun e => decide (e.1 ≤ e.2)) ∧
        (allIdx index.shape).all (fun idx => decide (index.get idx < d)) then
      .ok ⟨index.shape, fun idx => input.get (idx.set dim (index.get idx))⟩
    else .error .torch

/-- `right_expand_as(tensor, expand_as)` (seq.py:671-676); `s` is the shape of `expand_as`. -/
def rightExpand (t : Ten β) (s : List Nat) : Ten β :=
  ⟨t.shape ++ s.drop t.ndim, fun idx => t.get (idx.take t.ndim)⟩

/-- `tensor[..., :n]`.  Used at seq.py:567, 606, swor.py:72. -/
def narrowLast (t : Ten β) (n : Nat) : Ten β :=
  ⟨t.shape.dropLast ++ (t.shape.getLast?.map (min n)).toList, t.get⟩

/-- `tensor.reshape(tensor.shape[:-2] + (-1,))` (swor.py:112-114): torch refuses to infer the size if the other dimensions
have no elements. -/
def mergeLast (t : Ten β) : Except Err (Ten β) :=
  if Ten.numel t.shape.dropLast.dropLast = 0 then .error .torch
  else t.reshape (t.shape.dropLast.dropLast ++ [Ten.numel t.shape / Ten.numel t.shape.dropLast.dropLast])

/-- The elements of a tensor along its last dimension, at the given index of the others.
As read by `torch.topk(dim=-1)` at swor.py:170. -/
def lastRow (t : Ten β) (ix : List Nat) : List β := (List.range (t.shape.getLast?.getD 0)).map (fun q => t.get (ix ++ [q]))

/-- The indices chosen by `select_samples` (swor.py:154-173) in each row; `tk ix` chooses in the row of the plate index
`ix`. -/
def topkT (tk : List Nat → Nat → List (WithBot α) → List α → List Nat) (m : Nat) (G : Ten (WithBot α)) (J : Ten α) : Ten Nat :=
  ⟨G.shape.dropLast ++ [m], fun idx =>
    (tk idx.dropLast m (lastRow G idx.dropLast) (lastRow J idx.dropLast)).getD (idx.getLast?.getD 0) 0⟩

/-- `sampled_support_indices[(slice(None),) * amt_plates + (slice(0, n),) + indices] = vals` (swor.py:127-129, 149-151). -/
def setItemT (P : Nat) (sampled : Ten Nat) (n : Nat) (indices : List Nat) (vals : Ten Nat) : Except Err (Ten Nat) :=
  if n ≤ sampled.shape.getD P 0 ∧ vals.shape = sampled.shape.take P ++ [n] then
    .ok ⟨sampled.shape, fun idx =>
      if idx.getD P 0 < n ∧ idx.drop (P + 1) = indices then vals.get (idx.take (P + 1)) else sampled.get idx⟩
  else .error .torch

/-- The variables of the loop in `IterDecoding.decode` (seq.py:556-602). -/
structure BeamT (α : Type _) where
  sampled : Ten Nat
  joint : Option (Ten α)
  parentIdx : Option (Ten Nat)
  amt : Nat

/-- `all_joint_log_probs` (swor.py:61-87); `yv` are the log-probabilities for the event (seq.py:587). -/
def allJointT [Add α] (P : Nat) (cond : Bool) (yv : Ten α) (b : BeamT α) : Except Err (Ten α) :=
  match b.joint with
  | none => .ok yv
  | some j =>
    if cond then
      match b.parentIdx with
      | none => .error .type
      | some pi =>
        match gatherT yv P (rightExpand (narrowLast pi b.amt) yv.shape) with
        | .error e => .error e
        | .ok y => if j.shape = y.shape.dropLast then .ok ⟨y.shape, fun idx => j.get idx.dropLast + y.get idx⟩ else .error .torch
    else if j.shape.dropLast = yv.shape.dropLast then
      .ok ⟨j.shape ++ (yv.shape.getLast?).toList, fun idx => j.get idx.dropLast + yv.get (idx.eraseIdx P)⟩
    else .error .torch

/-- swor.py:92-108.  The mask is used as an index: torch wants it to have the shape of what it selects from. -/
def applyFinishedT (eos : Option Nat) (fin : Option (Ten Bool)) (perturbed : Option (Ten (WithBot α))) (G : Ten (WithBot α)) :
    Except Err (Ten (WithBot α)) :=
  match fin with
  | none => .ok G
  | some m =>
    match eos, perturbed with
    | some e, some p =>
      if m.shape ≠ p.shape then .error .index
      else if G.shape.getLast?.getD 0 ≤ e then .error .index
      else if m.shape ≠ G.shape.dropLast then .error .index
      else .ok ⟨G.shape, fun idx =>
        if m.get idx.dropLast then (if idx.getLast?.getD 0 = e then p.get idx.dropLast else ⊥) else G.get idx⟩
    | _, _ => .error .attribute

/-- `cond_gumbel_sample` (swor.py:90): `noise ix r t` is its value at plate index `ix` for sample `r` and token `t`. -/
def noiseT (P : Nat) (first : Bool) (noise : List Nat → Nat → Nat → WithBot α) (shape : List Nat) : Ten (WithBot α) :=
  ⟨shape, fun idx => noise (idx.take P) (if first then 0 else idx.getD P 0) (idx.getLast?.getD 0)⟩

/-- `decode_step` from the joint log-probabilities `all` on (swor.py:89-173); `dom` is the size of the domain (line 136). -/
def chooseT (P k : Nat) (eos : Option Nat) (tk : List Nat → Nat → List (WithBot α) → List α → List Nat)
    (fin : Option (Ten Bool)) (indices : List Nat) (dom : Nat) (noise : List Nat → Nat → Nat → WithBot α)
    (b : BeamT α) (perturbed : Option (Ten (WithBot α))) (all : Ten α) : Except Err (BeamT α × Ten (WithBot α)) :=
  match applyFinishedT eos fin perturbed (noiseT P b.joint.isNone noise all.shape) with
  | .error e => .error e
  | .ok G =>
    match b.joint with
    | none =>
      let arg := topkT tk (min k (G.shape.getLast?.getD 0)) G all
      match gatherT G P arg, gatherT all P arg with
      | .ok perturbed', .ok joint' =>
        match setItemT P b.sampled (arg.shape.getLast?.getD 0) indices arg with
        | .error e => .error e
        | .ok sampled => .ok (⟨sampled, some joint', b.parentIdx, arg.shape.getLast?.getD 0⟩, perturbed')
      | .error e, _ => .error e
      | _, .error e => .error e
    | some _ =>
      match mergeLast G with
      | .error e => .error e
      | .ok G' =>
        match all.reshape G'.shape with
        | .error e => .error e
        | .ok all' =>
          let arg := topkT tk (min k (G'.shape.getLast?.getD 0)) G' all'
          match gatherT G' P arg, gatherT all' P arg with
          | .ok perturbed', .ok joint' =>
            let chosen := arg.map (· / dom)
            match gatherT b.sampled P (rightExpand chosen b.sampled.shape) with
            | .error e => .error e
            | .ok rows =>
              match setItemT P rows (arg.shape.getLast?.getD 0) indices (arg.map (· % dom)) with
              | .error e => .error e
              | .ok sampled =>
                match b.parentIdx with
                | none => .ok (⟨sampled, some joint', none, arg.shape.getLast?.getD 0⟩, perturbed')
                | some pi =>
                  match gatherT pi P chosen with
                  | .error e => .error e
                  | .ok pi' => .ok (⟨sampled, some joint', some pi', arg.shape.getLast?.getD 0⟩, perturbed')
          | .error e, _ => .error e
          | _, .error e => .error e

/-- `SampleWithoutReplacement.decode_step` with `select_samples` (swor.py:34-173) on the whole tensors. -/
def decodeStepT [Add α] (P k : Nat) (eos : Option Nat) (tk : List Nat → Nat → List (WithBot α) → List α → List Nat)
    (fin : Option (Ten Bool)) (cond : Bool) (indices : List Nat) (yv : Ten α) (noise : List Nat → Nat → Nat → WithBot α)
    (b : BeamT α) (perturbed : Option (Ten (WithBot α))) : Except Err (BeamT α × Ten (WithBot α)) :=
  match allJointT P cond yv b with
  | .error e => .error e
  | .ok all => chooseT P k eos tk fin indices (yv.shape.getLast?.getD 0) noise b perturbed all

/-- `d_log_probs[(...,) + indices]` (seq.py:587). -/
def eventAt (d : Ten α) (indices : List Nat) : Ten α :=
  ⟨d.shape.take (d.ndim - indices.length), fun idx => d.get (idx ++ indices)⟩

/-- The loop of seq.py:584-602 over the event cells; `noise` is given for the row-major position of the cell. -/
def decodeLoopT [Add α] (P k : Nat) (eos : Option Nat) (tk : List Nat → Nat → List (WithBot α) → List α → List Nat)
    (fin : Option (Ten Bool)) (cond : Bool) (d : Ten α) (events : List Nat) (noise : List Nat → Nat → Nat → Nat → WithBot α) :
    List Nat → BeamT α → Option (Ten (WithBot α)) → Except Err (BeamT α × Option (Ten (WithBot α)))
  | [], b, p => .ok (b, p)
  | ev :: evs, b, p =>
    match decodeStepT P k eos tk fin cond (Ten.unravel events ev) (eventAt d (Ten.unravel events ev))
        (fun ix => noise ix ev) b p with
    | .error e => .error e
    | .ok (b', p') => decodeLoopT P k eos tk fin cond d events noise evs b' (some p')

/-- The variables before the loop (seq.py:556-581). -/
def startBeamT (ps : List Nat) (k : Nat) (events : List Nat) (joint : Option (Ten α)) : BeamT α :=
  { sampled := ⟨ps ++ k :: events, fun _ => 0⟩
    joint := joint
    parentIdx := joint.map (fun j => ⟨ps ++ [k], fun idx =>
      if idx.getLast?.getD 0 < j.shape.getLast?.getD 0 then idx.getLast?.getD 0 else 0⟩)
    amt := (joint.map (fun j => j.shape.getLast?.getD 0)).getD 0 }

/-- A distribution as `decode` reads it (seq.py:381-397): the sizes of the plates without that of the decoder, the place of the
decoder's plate among the plates of its parameters and its size if it is there with more than one sample (seq.py:435-447), the
shape of the independent dimensions, `distr.log_prob(enumerate_support(expand=False))` and `enumerate_support(expand=True)`. -/
structure DistT (α V : Type _) where
  ps : List Nat
  place : Option (Nat × Nat)
  events : List Nat
  logProb : Ten α
  support : Ten V

/-- The log-probabilities with the dimensions in the order plates, samples of the decoder, domain, events: seq.py:459-475 and
490-505. -/
def DistT.logProbs {V : Type _} (d : DistT α V) : Except Err (Ten α) :=
  let A := d.ps.length + (if d.place.isSome then 1 else 0)
  match permuteT d.logProb (List.range' 1 A ++ [0] ++ List.range' (A + 1) (d.logProb.ndim - (A + 1))) with
  | .error e => .error e
  | .ok t =>
    match d.place with
    | none => .ok t
    | some (i, _) => permuteT t (List.range i ++ List.range' (i + 1) (A - (i + 1)) ++ [i] ++ List.range' A (t.ndim - A))

/-- The values of the domain with the dimensions in the order plates, domain, events, element: seq.py:478-484 and 510-517. -/
def DistT.values {V : Type _} (d : DistT α V) : Except Err (Ten V) :=
  match (match d.place with
    | none => Except.ok d.support
    | some (i, _) => Ten.selectDim d.support (i + 1) 0) with
  | .error e => .error e
  | .ok t => permuteT t (List.range' 1 d.ps.length ++ [0] ++ List.range' (d.ps.length + 1) (t.ndim - (d.ps.length + 1)))

/-- `IterDecoding.decode` (seq.py:381-611) with the steps of sampling without replacement: the tokens, the sample, the joint
log-probabilities, the parent indices and the new `perturbed_log_probs`.  Before the first variable there is no plate of the
decoder that the distribution could carry (`self.new_plate` is `None` at seq.py:487). -/
def decodeT [Add α] {V : Type _} (k : Nat) (eos : Option Nat) (tk : List Nat → Nat → List (WithBot α) → List α → List Nat)
    (fin : Option (Ten Bool)) (d : DistT α V) (noise : List Nat → Nat → Nat → Nat → WithBot α) (joint : Option (Ten α))
    (perturbed : Option (Ten (WithBot α))) :
    Except Err (Ten Nat × Ten V × Option (Ten α) × Option (Ten Nat) × Option (Ten (WithBot α))) :=
  match d.logProbs with
  | .error e => .error e
  | .ok lp =>
    match d.values with
    | .error e => .error e
    | .ok support =>
      if d.place.isSome && joint.isNone then .error .attribute
      else if k < ((joint.map (fun j => j.shape.getLast?.getD 0)).getD 0) then .error .torch
      else
        match decodeLoopT d.ps.length k eos tk fin d.place.isSome lp d.events noise (List.range (Ten.numel d.events))
            (startBeamT d.ps k d.events joint) perturbed with
        | .error e => .error e
        | .ok (b, p) =>
          let tokens := if b.amt < k then narrowLast b.sampled b.amt else b.sampled
          match gatherT support d.ps.length (rightExpand tokens support.shape) with
          | .error e => .error e
          | .ok sample => .ok (tokens, sample, b.joint, b.parentIdx, p)

end Storch.Decode
