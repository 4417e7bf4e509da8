import Verif.Model.Base
import Mathlib.Algebra.BigOperators.Group.Finset.Defs

/-!
# Torch tensors

A dense tensor is a shape together with the function from index lists to elements.  Only the
primitives that storchastic itself calls are modelled.  Elements are exact (no rounding, no NaN);
dtypes, devices, strides and autograd metadata are left out (autograd is modelled by the element
type, see `Verif.Model.AD`).
-/

namespace Storch

/-- A torch tensor: `shape` is `tensor.shape`, `get [i₀, …, iₖ]` is `tensor[i₀, …, iₖ]`.
The tensors wrapped at tensor.py:225. -/
structure Ten (α : Type _) where
  shape : List Nat
  get : List Nat → α

namespace Ten

variable {α β : Type _}

/-- `tensor.ndim`.  Used at wrappers.py:119, inference.py:197. -/
def ndim (t : Ten α) : Nat := t.shape.length

/-- `InB idx shape`: `idx` is a valid index of a tensor of that shape.
No Python counterpart: the indices torch accepts, for example at tensor.py:322-324. -/
def InB (idx shape : List Nat) : Prop := List.Forall₂ (· < ·) idx shape

/-- Same shape and same elements at every valid index.
No Python counterpart: equality of the tensors of tensor.py:225. -/
def Eqv (s t : Ten α) : Prop :=
  s.shape = t.shape ∧ ∀ idx, InB idx s.shape → s.get idx = t.get idx

/-- A zero-dimensional tensor.  Used at tensor.py:34, inference.py:128. -/
def scalar (a : α) : Ten α := ⟨[], fun _ => a⟩

/-- `tensor.transpose(i, j)` for non-negative dimensions.  Used at wrappers.py:104, inference.py:155. -/
def transpose (t : Ten α) (i j : Nat) : Except Err (Ten α) :=
  if i < t.ndim ∧ j < t.ndim then
    .ok ⟨swapAt t.shape i j, fun idx => t.get (swapAt idx i j)⟩
  else .error .index

/-- `tensor.unsqueeze(i)` for a non-negative dimension.  Used at wrappers.py:112, inference.py:65. -/
def unsqueeze (t : Ten α) (i : Nat) : Except Err (Ten α) :=
  if i ≤ t.ndim then
    .ok ⟨t.shape.insertIdx i 1, fun idx => t.get (idx.eraseIdx i)⟩
  else .error .index

/-- `tensor[(...,) + (None,) * k]`: `k` new dimensions of size one on the right.
Used at wrappers.py:93, tensor.py:86-89. -/
def noneRight (t : Ten α) (k : Nat) : Ten α :=
  ⟨t.shape ++ List.replicate k 1, fun idx => t.get (idx.take t.ndim)⟩

/-- Can a dimension of size `d` be expanded to size `e`?.  Checked by the `expand` of wrappers.py:121. -/
def dimExpands (d e : Nat) : Bool := d == e || d == 1

/-- The index into a tensor of shape `shape` that broadcasting reads for the result index `idx`
(of the same length): position 0 along dimensions of size one.  Used at wrappers.py:121. -/
def bidx (shape idx : List Nat) : List Nat :=
  List.zipWith (fun d i => if d = 1 then 0 else i) shape idx

/-- `tensor.expand(s)` where `s` has as many dimensions as the tensor (the only use in
wrappers.py:121). -/
def expand (t : Ten α) (s : List Nat) : Except Err (Ten α) :=
  if t.shape.length = s.length ∧ (List.zipWith dimExpands t.shape s).all id then
    .ok ⟨s, fun idx => t.get (bidx t.shape idx)⟩
  else .error .torch

/-- Pad a shape with ones on the left up to `n` dimensions (torch's right-aligned broadcasting).
Done by the torch functions called at wrappers.py:376. -/
def padL (n : Nat) (s : List Nat) : List Nat := List.replicate (n - s.length) 1 ++ s

/-- Broadcast two dimension sizes.  Done by the torch functions called at wrappers.py:376. -/
def bdim (x y : Nat) : Option Nat :=
  if x = y then some x else if x = 1 then some y else if y = 1 then some x else none

/-- Broadcast two shapes of the same length, dimension by dimension.
Done by the torch functions called at wrappers.py:376. -/
def bzip : List Nat → List Nat → Option (List Nat)
  | [], [] => some []
  | x :: xs, y :: ys =>
    match bdim x y, bzip xs ys with
    | some d, some ds => some (d :: ds)
    | _, _ => none
  | _, _ => none

/-- `torch.broadcast_shapes(*shapes)`.  Done by the torch functions called at wrappers.py:376. -/
def bshapes (shapes : List (List Nat)) : Option (List Nat) :=
  let n := (shapes.map List.length).foldr max 0
  shapes.foldlM (fun acc s => bzip acc (padL n s)) (List.replicate n 1)

/-- A torch element-wise function of any number of tensors, with torch's right-aligned
broadcasting.  Called at wrappers.py:376. -/
def elementwise (f : List α → β) (ts : List (Ten α)) : Except Err (Ten β) :=
  match bshapes (ts.map Ten.shape) with
  | none => .error .torch
  | some s => .ok ⟨s, fun idx =>
      f (ts.map (fun t => t.get (bidx t.shape (idx.drop (idx.length - t.ndim)))))⟩

/-- `torch.sum(tensor, (i,))`: the summed dimension disappears.  Used at storch.py:52. -/
def sumDim [AddCommMonoid α] (t : Ten α) (i : Nat) : Except Err (Ten α) :=
  match t.shape[i]? with
  | none => .error .index
  | some d => .ok ⟨t.shape.eraseIdx i, fun idx => ∑ k ∈ Finset.range d, t.get (idx.insertIdx i k)⟩

/-- Number of elements of a tensor of this shape.  For the `reshape` of wrappers.py:125. -/
def numel (s : List Nat) : Nat := s.foldr (· * ·) 1

/-- Row-major position of an index.  For the `reshape` of wrappers.py:125. -/
def ravel : List Nat → List Nat → Nat
  | _ :: s, i :: idx => i * numel s + ravel s idx
  | _, _ => 0

/-- Inverse of `ravel`: the index of the element at a row-major position.  For the `reshape` of wrappers.py:125. -/
def unravel : List Nat → Nat → List Nat
  | [], _ => []
  | _ :: s, k => k / numel s :: unravel s (k % numel s)

/-- `tensor.reshape(s)`; raises when the number of elements differs.  Used at wrappers.py:125, 314. -/
def reshape (t : Ten α) (s : List Nat) : Except Err (Ten α) :=
  if numel t.shape = numel s then
    .ok ⟨s, fun idx => t.get (unravel t.shape (ravel s idx))⟩
  else .error .torch

/-- `tensor.reshape((-1,) + tensor.shape[k:])` (wrappers.py:125): the size of the first dimension is
inferred, which torch refuses when the remaining dimensions have no elements. -/
def flattenLeft (t : Ten α) (k : Nat) : Except Err (Ten α) :=
  let rest := t.shape.drop k
  if numel rest = 0 then .error .torch
  else t.reshape (numel (t.shape) / numel rest :: rest)

/-- `a.map f`: an element-wise unary function.  Called at wrappers.py:376. -/
def map (f : α → β) (t : Ten α) : Ten β := ⟨t.shape, fun idx => f (t.get idx)⟩

end Ten

end Storch
