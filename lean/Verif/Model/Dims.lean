import Verif.Model.Reduce

/-!
# Unweighted reductions over dimensions: `storch.mean`, `storch.sum`, `storch.logsumexp` (storch/storch.py:10-57)
-/

namespace Storch
variable {α : Type _}

/-- An element of `dims`: a number, or a plate (given by its name or as an object whose name is read).
storch.py:15-31. -/
inductive DimArg
  | pos (i : Int)
  | plate (name : String)

/-- `_convert_indices` (storch.py:10-32) for a list of dimensions.  The result is the tuple of dimensions and the names of
the reduced plates. -/
def convertIndices (t : STen α) : List DimArg → Except Err (List Int × List String)
  | [] => .ok ([], [])
  | .pos i :: r =>
    if (t.plateDims : Int) ≤ i ∨ (i < 0 ∧ -(t.eventDims : Int) ≤ i) then
      match convertIndices t r with
      | .error e => .error e
      | .ok (is, bs) => .ok (i :: is, bs)
    else .error .index
  | .plate n :: r =>
    match t.plateDimIndex n with
    | .error e => .error e
    | .ok k =>
      match convertIndices t r with
      | .error e => .error e
      | .ok (is, bs) => .ok ((k : Int) :: is, n :: bs)

/-- torch's reading of a dimension: negative numbers count from the end; a tensor without dimensions is treated as one
with a single dimension.  Used by the torch functions called at storch.py:42, 52, 57. -/
def normDim (ndim : Nat) (i : Int) : Except Err Nat :=
  if -(max ndim 1 : Nat) ≤ i ∧ i < (max ndim 1 : Nat) then
    .ok (if i < 0 then i + (max ndim 1 : Nat) else i).toNat
  else .error .index

/-- `normDim` for each of the dimensions (storch.py:42, 52, 57). -/
def normDims (ndim : Nat) : List Int → Except Err (List Nat)
  | [] => .ok []
  | i :: r =>
    match normDim ndim i with
    | .error e => .error e
    | .ok k =>
      match normDims ndim r with
      | .error e => .error e
      | .ok ks => .ok (k :: ks)

/-- The sizes of the dimensions that are kept; `true` marks a reduced dimension.
For the torch functions called at storch.py:42, 52, 57. -/
def keepShape : List Bool → List Nat → List Nat
  | false :: m, d :: s => d :: keepShape m s
  | true :: m, _ :: s => keepShape m s
  | _, _ => []

/-- The indices of the block of elements that is reduced to the element at `idx`, in row-major order.
For the torch functions called at storch.py:42, 52, 57. -/
def blockIdx : List Bool → List Nat → List Nat → List (List Nat)
  | false :: m, _ :: s, i :: idx => (blockIdx m s idx).map (i :: ·)
  | true :: m, d :: s, idx => (List.range d).flatMap (fun k => (blockIdx m s idx).map (k :: ·))
  | _, _, _ => [[]]

/-- `f(t, dims)` for a torch reduction `f` (`torch.mean`, `torch.sum`, `torch.logsumexp` at storch.py:42, 52, 57): `red`
reduces the elements of a block.  An empty tuple means all dimensions; a dimension given twice raises. -/
def Ten.reduceDims (red : List α → α) (dims : List Int) (t : Ten α) : Except Err (Ten α) :=
  match normDims t.ndim dims with
  | .error e => .error e
  | .ok ds =>
    if ds.Nodup then
      let mask := (List.range t.ndim).map (fun k => ds.isEmpty || decide (k ∈ ds))
      .ok ⟨keepShape mask t.shape, fun idx => red ((blockIdx mask t.shape idx).map t.get)⟩
    else .error .torch

/-- The torch reduction as it is passed to the wrapper; the tuple of dimensions is left out of the arguments of the
wrapper, which passes it on.  storch.py:42, 52, 57. -/
def reduceFn (red : List α → α) (dims : List Int) : Fn α := fun a =>
  match a.pos with
  | [.torch t] =>
    match t.reduceDims red dims with
    | .ok r => .ok (.torch r)
    | .error e => .error e
  | _ => .error .type

/-- `storch.mean`, `storch.sum` and `storch.logsumexp` (storch.py:35-57) for a list of dimensions. -/
def reduceWith [ValEq α] (hook : UnwrapHook α) (red : List α → α) (t : STen α) (dims : List DimArg) : Except Err (STen α) :=
  match convertIndices t dims with
  | .error e => .error e
  | .ok (is, bs) => asSt (handleDet hook false false { reducePlates := bs } (reduceFn red is) ⟨[.st t false], []⟩)

/-- `storch.sum` (storch.py:45-52). -/
def sumDims [ValEq α] [AddCommMonoid α] (hook : UnwrapHook α) (t : STen α) (dims : List DimArg) : Except Err (STen α) :=
  reduceWith hook List.sum t dims

/-- `storch.mean` (storch.py:35-42); `inv n` is `1 / n`. -/
def meanDims [ValEq α] [Semiring α] (hook : UnwrapHook α) (inv : Nat → α) (t : STen α) (dims : List DimArg) :
    Except Err (STen α) :=
  reduceWith hook (fun xs => inv xs.length * xs.sum) t dims

/-- `storch.logsumexp` (storch.py:55-57); `ex` and `lg` are `exp` and `log`. -/
def logsumexpDims [ValEq α] [AddCommMonoid α] (hook : UnwrapHook α) (ex lg : α → α) (t : STen α) (dims : List DimArg) :
    Except Err (STen α) :=
  reduceWith hook (fun xs => lg (xs.map ex).sum) t dims

end Storch
