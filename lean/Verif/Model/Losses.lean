import Verif.Model.Dims

/-!
# `b_binary_cross_entropy` (storch/nn/losses.py)

Both arguments are storch tensors and there is no `weight`.  The element-wise function that
`F.binary_cross_entropy` computes is a parameter.
-/

namespace Storch
variable {α : Type _}

/-- `t.expand(s)` where `s` may have more dimensions than `t` (`expand_as` of losses.py:47). -/
def Ten.expandTo (t : Ten α) (s : List Nat) : Except Err (Ten α) :=
  if t.shape.length ≤ s.length ∧ (List.zipWith Ten.dimExpands t.shape (s.drop (s.length - t.shape.length))).all id then
    .ok ⟨s, fun idx => t.get (Ten.bidx t.shape (idx.drop (idx.length - t.ndim)))⟩
  else .error .torch

/-- `torch.Tensor.expand_as` as it is passed to the wrapper (losses.py:47). -/
def expandAsFn : Fn α := fun a =>
  match a.pos with
  | [.torch t, .torch o] =>
    match t.expandTo o.shape with
    | .ok r => .ok (.torch r)
    | .error e => .error e
  | _ => .error .type

/-- `F.binary_cross_entropy(input, target, None, reduction="none")` (losses.py:48-50): an element-wise function of two
tensors, which have to be of the same size. -/
def sameSizeFn (f : List α → α) : Fn α := fun a =>
  match a.pos with
  | [.torch i, .torch t] =>
    if t.shape = i.shape then elementwiseFn f a else .error .value
  | _ => .error .type

/-- The argument `reduction` (losses.py:15, 55-60). -/
inductive LossReduction
  | mean
  | sum
  | none
  | other

section
variable [ValEq α] [Semiring α]

/-- The body of `b_binary_cross_entropy` (losses.py:42-60); `inv n` is `1 / n`. -/
def crossEntropyBody (hook : UnwrapHook α) (f : List α → α) (inv : Nat → α) (dims : List String) (red : LossReduction)
    (input target : STen α) : Except Err (Val α) :=
  match asSt (handleDet hook false false {} expandAsFn (opArgs [.st target false, .st input false])) with
  | .error e => .error e
  | .ok target' =>
    match asSt (handleDet hook false false {} (sameSizeFn f) (opArgs [.st input false, .st target' false])) with
    | .error e => .error e
    | .ok u =>
      let indices := (List.range' u.plateDims u.eventDims).map (fun i => DimArg.pos (i : Nat)) ++ dims.map DimArg.plate
      match red with
      | .mean =>
        match meanDims hook inv u indices with
        | .error e => .error e
        | .ok r => .ok (.st r false)
      | .sum =>
        match sumDims hook u indices with
        | .error e => .error e
        | .ok r => .ok (.st r false)
      | .none => .ok (.st u false)
      | .other => .ok .none

/-- `b_binary_cross_entropy(input, target, dims, reduction=red)` (losses.py:9-60) for a list of names; the wrapper is
called with `unwrap=False`, and the arguments that contain no tensors are left out of its arguments. -/
def bCrossEntropy (hook : UnwrapHook α) (f : List α → α) (inv : Nat → α) (dims : List String) (red : LossReduction)
    (input target : STen α) : Except Err (Val α) :=
  handleDet hook false false { unwrap := false } (fun a =>
    match a.pos with
    | [.st i _, .st t _] => crossEntropyBody hook f inv dims red i t
    | _ => .error .type) (opArgs [.st input false, .st target false])

end

end Storch
