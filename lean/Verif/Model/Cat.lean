import Verif.Model.Finished
import Verif.Model.Wrap

/-!
# `storch.cat`
-/

namespace Storch
variable {α : Type _}

/-- The torch tensors of a list of which nothing else is an element; `torch.cat` refuses other elements.
storch.py:266. -/
def allTorch : List (Val α) → Option (List (Ten α))
  | [] => some []
  | .torch t :: vs => (allTorch vs).map (t :: ·)
  | _ :: _ => none

/-- How torch reads a dimension of a tensor with `n` dimensions (`torch.cat` at storch.py:266): negative numbers count
from the end, others out of range raise. -/
def wrapDim (n : Nat) (dim : Int) : Option Nat :=
  if 0 ≤ dim then if dim < n then some dim.toNat else none
  else if 0 ≤ dim + n then some (dim + n).toNat else none

/-- `torch.cat(tensors, dim)` (storch.py:266) as the wrapper calls it: a list of torch tensors and a number; the number
is the parameter `dim`.  Simplified: torch leaves out one-dimensional tensors of size zero. -/
def catFn (dim : Int) : Fn α := fun a =>
  match a.pos with
  | [.lst vs, .other _] =>
    match allTorch vs with
    | none => .error .type
    | some [] => .error .torch
    | some (t :: ts) =>
      if t.ndim = 0 then .error .runtime
      else
        match wrapDim t.ndim dim with
        | none => .error .index
        | some d =>
          match Decode.catL d (t :: ts) with
          | .error e => .error e
          | .ok r => .ok (.torch r)
  | _ => .error .type

/-- `storch.cat(tensors, dim)` (storch.py:258-266) on a list of storch tensors, outside of all contexts. -/
def catCall [ValEq α] (hook : UnwrapHook α) (tensors : List (STen α)) (dim : Int) : Except Err (Val α) :=
  handleDet hook false false { expandPlates := true } (catFn dim)
    ⟨[.lst (tensors.map fun a => .st a false), .other dim.natAbs], []⟩

end Storch
