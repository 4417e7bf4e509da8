import Verif.Model.Wrap

/-!
# `storch.gather`
-/

namespace Storch
variable {α : Type _}

/-- `torch.gather(t, dim, index)`, called at storch.py:102-104 (torch code, from its documentation): the dimensions
must be as many, those of `index` other than `dim` at most those of `t`, and every element of `index` a position in
dimension `dim` of `t`; otherwise it raises.  `toInt` reads an element of `index` as an integer.  Simplified: the check
that `index` has integer type is not modelled, and every violation is the same exception. -/
def Ten.gatherBy (toInt : α → Int) (t : Ten α) (dim : Nat) (index : Ten α) : Except Err (Ten α) :=
  if t.ndim ≠ index.ndim ∨ t.ndim ≤ dim then .error .torch
  else if ¬ (List.range t.ndim).all (fun d => d == dim || decide (index.shape.getD d 0 ≤ t.shape.getD d 0)) then
    .error .torch
  else if (allIdx index.shape).all (fun idx =>
      decide (0 ≤ toInt (index.get idx) ∧ toInt (index.get idx) < t.shape.getD dim 0)) then
    .ok ⟨index.shape, fun idx => t.get (idx.set dim (toInt (index.get idx)).toNat)⟩
  else .error .torch

/-- `torch.gather` as the wrapper calls it: one positional argument, and the keywords `index` and `dim`, which the
wrapper has set (storch.py:102-104, wrappers.py:233, 376). -/
def gatherFn (toInt : α → Int) : Fn α := fun a =>
  match a.pos, a.kw with
  | [.torch t], [("index", .torch i), ("dim", .other d)] =>
    match t.gatherBy toInt d i with
    | .error e => .error e
    | .ok r => .ok (.torch r)
  | _, _ => .error .type

/-- `storch.gather(input, dim, index)` (storch.py:100-104) outside of all contexts. -/
def gatherCall [ValEq α] (hook : UnwrapHook α) (toInt : α → Int) (input : STen α) (dim : String) (index : STen α) :
    Except Err (Val α) :=
  handleDet hook false false { dim := some dim, expandPlates := true } (gatherFn toInt)
    ⟨[.st input false], [("index", .st index false)]⟩

end Storch
