import Verif.Model.Wrap
import Verif.Model.OrderPlates
import Mathlib.Algebra.BigOperators.Group.List.Defs
import Mathlib.Algebra.Ring.Defs

/-!
# Reductions over plates (storch/storch.py, storch/tensor.py:74-101)

`dt : α → α` stands for what `detach_weights` does to the weights: the identity for
`detach_weights=False`, `detach` of the element type otherwise.
-/

namespace Storch
variable {α : Type _}

/-- The wrapped call has to return a storch tensor.  wrappers.py:311-316 wraps the outputs. -/
def asSt : Except Err (Val α) → Except Err (STen α)
  | .ok (.st r _) => .ok r
  | .ok _ => .error .type
  | .error e => .error e

/-- `torch.sum(tensor, (i,))`.  Used at storch.py:52. -/
def sumFn [AddCommMonoid α] : Fn α := fun a =>
  match a.pos with
  | [.torch t, .tup [.other i]] =>
    match t.sumDim i with
    | .ok r => .ok (.torch r)
    | .error e => .error e
  | _ => .error .type

/-- `tensor[(...,) + (None,) * k]` on torch tensors.  Used at tensor.py:86-89. -/
def noneRightFn (k : Nat) : Fn α := fun a =>
  match a.pos with
  | [.torch t, .tup _] => .ok (.torch (t.noneRight k))
  | _ => .error .type

/-- The plates of the storch tensor that is the weight of `p`: `p` itself or parents of `p`.
tensor.py:32; `plate.weight` is set at method.py:136. -/
def Plate.weightPlates (p : Plate α) (names : List String) : List (Plate α) :=
  names.filterMap (fun s => (p :: p.parents).find? (fun q => q.name == s))

/-- `plate.weight`, detached when asked (tensor.py:75-77), as an operand of torch functions. -/
def Plate.weightOp (dt : α → α) (p : Plate α) : Operand α :=
  match p.weight with
  | .torch w => .torch (w.map dt)
  | .storch w names => .st ⟨w.map dt, p.weightPlates names,
      ((p.weightPlates names).filter (fun q => decide (1 < q.n))).length⟩ false

/-- `operand.ndim` (tensor.py:513-515). -/
def Operand.ndim : Operand α → Nat
  | .st t _ => t.ten.ndim
  | .torch t => t.ndim

variable [ValEq α]

/-- `storch.sum(tensor, plate)` (storch.py:45-52) with a plate as `dims`. -/
def storchSum [AddCommMonoid α] (hook : UnwrapHook α) (t : STen α) (name : String) :
    Except Err (STen α) :=
  match t.plateDimIndex name with
  | .error e => .error e
  | .ok i => asSt (handleDet hook false false { reducePlates := [name] } sumFn
      ⟨[.st t false, .tup [.other i]], []⟩)

/-- `x * y` (`torch.mul` through `__torch_function__`, tensor.py:243-268). -/
def mulOps [MulOneClass α] (hook : UnwrapHook α) (x y : Operand α) : Except Err (STen α) :=
  asSt (handleDet hook false false {} (elementwiseFn List.prod) (opArgs [x, y]))

/-- `weight[(...,) + (None,) * k]` (tensor.py:86-89); `__getitem__` of a storch tensor is wrapped with
`l_broadcast=False` (tensor.py:322-324). -/
def noneRightOp (hook : UnwrapHook α) (k : Nat) : Operand α → Except Err (Operand α)
  | .torch w => .ok (.torch (w.noneRight k))
  | .st w s =>
    match asSt (handleDet hook false false { lBroadcast := false } (noneRightFn k)
      ⟨[.st w s, .tup (.other 0 :: List.replicate k .none)], []⟩) with
    | .error e => .error e
    | .ok r => .ok (.st r false)

/-- The lambda `x * plate_weighting` of tensor.py:79: for a storch weight the multiplication is a nested
wrapped call on the already unwrapped `x`. -/
def timesWeight [MulOneClass α] (hook : UnwrapHook α) (w : Operand α) : Fn α := fun a =>
  match a.pos with
  | [.torch x] =>
    match w with
    | .torch v =>
      match Ten.elementwise List.prod [x, v] with
      | .ok r => .ok (.torch r)
      | .error e => .error e
    | .st v s =>
      handleDet hook false false {} (elementwiseFn List.prod) (opArgs [.torch x, .st v s])
  | _ => .error .type

/-- `plate.reduce(tensor, detach_weights)` (tensor.py:74-101). -/
def Plate.reduce [Semiring α] (hook : UnwrapHook α) (dt : α → α) (p : Plate α) (t : STen α) :
    Except Err (STen α) :=
  let w := p.weightOp dt
  if p.n = 1 then
    asSt (handleDet hook false false { reducePlates := [p.name] } (timesWeight hook w)
      ⟨[.st t false], []⟩)
  else if w.ndim = 0 then
    match storchSum hook t p.name with
    | .error e => .error e
    | .ok s => mulOps hook (.st s false) w
  else if w.ndim = 1 then
    match t.plateDimIndex p.name with
    | .error e => .error e
    | .ok index =>
      match noneRightOp hook (t.ten.ndim - index - 1) w with
      | .error e => .error e
      | .ok w' =>
        match mulOps hook (.st t false) w' with
        | .error e => .error e
        | .ok m => storchSum hook m p.name
  else if p.parents.all (fun q => q.isIn t.plates) then
    match mulOps hook (.st t false) w with
    | .error e => .error e
    | .ok m => storchSum hook m p.name
  else .error .value

/-- `for plate in ...: tensor = plate.reduce(tensor)` (storch.py:125-126). -/
def reduceLoop [Semiring α] (hook : UnwrapHook α) (dt : α → α) :
    List (Plate α) → STen α → Except Err (STen α)
  | [], t => .ok t
  | p :: ps, t =>
    match p.reduce hook dt t with
    | .error e => .error e
    | .ok t' => reduceLoop hook dt ps t'

/-- An element of the `plates` argument: a name or a plate.  storch.py:64-97. -/
inductive PArg (α : Type _)
  | name (s : String)
  | plate (p : Plate α)

/-- storch.py:87-97: names are looked up on the tensor. -/
def resolvePlates (t : STen α) : List (PArg α) → Except Err (List (Plate α))
  | [] => .ok []
  | .plate p :: r =>
    match resolvePlates t r with
    | .error e => .error e
    | .ok ps => .ok (p :: ps)
  | .name s :: r =>
    match t.getPlate s with
    | .error e => .error e
    | .ok p =>
      match resolvePlates t r with
      | .error e => .error e
      | .ok ps => .ok (p :: ps)

/-- storch.py:72-85: the checks made on the plates given with a torch tensor. -/
def torchPlates (shape : List Nat) : List (PArg α) → Nat → Except Err (List (Plate α))
  | [], _ => .ok []
  | .name _ :: _, _ => .error .value
  | .plate p :: r, i =>
    if 1 < p.n then
      match shape[i]? with
      | none => .error .index
      | some d =>
        if d ≠ p.n then .error .value
        else
          match torchPlates shape r (i + 1) with
          | .error e => .error e
          | .ok ps => .ok (p :: ps)
    else
      match torchPlates shape r i with
      | .error e => .error e
      | .ok ps => .ok (p :: ps)

/-- `_handle_inputs` (storch.py:64-97).  A single plate or name is passed as a one-element list; `none`
and the empty list are the same. -/
def handleInputs (t : Operand α) (plates : List (PArg α)) : Except Err (STen α × List (Plate α)) :=
  match t with
  | .torch x =>
    match plates with
    | [] => .error .value
    | _ :: _ =>
      match torchPlates x.shape plates 0 with
      | .error e => .error e
      | .ok ps =>
        match STen.mk' x ps with
        | .error e => .error e
        | .ok s => .ok (s, ps)
  | .st s _ =>
    match plates with
    | [] => .ok (s, s.plates)
    | _ :: _ =>
      match resolvePlates s plates with
      | .error e => .error e
      | .ok ps => .ok (s, ps)

/-- `reduce_plates(tensor, plates, detach_weights)` (storch.py:107-128). -/
def reducePlates [Semiring α] (hook : UnwrapHook α) (dt : α → α) (t : Operand α)
    (plates : List (PArg α)) : Except Err (STen α) :=
  match handleInputs t plates with
  | .error e => .error e
  | .ok (s, ps) =>
    match orderPlates ps true with
    | .error e => .error e
    | .ok order => reduceLoop hook dt order s

/-- storch.py:197-205: does the variance plate (a plate or a name) occur among the plates?  Comparing a
plate with a name is `False` (tensor.py:40-41), so names are found on the second test. -/
def findVarPlate (v : PArg α) : List (Plate α) → Option (Plate α)
  | [] => none
  | q :: qs =>
    match v with
    | .plate p => if q.pyEq p then some p else findVarPlate v qs
    | .name s => if q.name == s then some q else findVarPlate v qs

/-- `tensor.sum(range(i, i + k))` on torch tensors: sum out `k` consecutive dimensions.  Used at storch.py:215. -/
def Ten.sumBlock [AddCommMonoid α] (t : Ten α) (i : Nat) : Nat → Except Err (Ten α)
  | 0 => .ok t
  | k + 1 =>
    match t.sumDim (i + k) with
    | .error e => .error e
    | .ok t' => Ten.sumBlock t' i k

/-- `variance.sum(tensor.event_dim_indices)`: the torch method sees the tensor and a list of ints.  storch.py:215. -/
def sumBlockFn [AddCommMonoid α] (i k : Nat) : Fn α := fun a =>
  match a.pos with
  | [.torch t, .lst _] =>
    match t.sumBlock i k with
    | .ok r => .ok (.torch r)
    | .error e => .error e
  | _ => .error .type

/-- `a - b` on the elements of two tensors.  storch.py:211. -/
def subElts [Ring α] : List α → α
  | [a, b] => a - b
  | _ => 0

/-- `a ** 2` on the elements of one tensor.  storch.py:211. -/
def sqElts [Ring α] : List α → α
  | [a] => a * a
  | _ => 0

/-- `variance(tensor, variance_plate, plates, detach_weights)` (storch.py:180-216); `x ** 2` is modelled
as the element-wise square. -/
def variance [Ring α] (hook : UnwrapHook α) (dt : α → α) (t : Operand α) (v : PArg α)
    (plates : List (PArg α)) : Except Err (STen α) :=
  match handleInputs t plates with
  | .error e => .error e
  | .ok (s, ps) =>
    match findVarPlate v ps with
    | none => .error .value
    | some vp =>
      match vp.reduce hook dt s with
      | .error e => .error e
      | .ok mean =>
        match asSt (handleDet hook false false {} (elementwiseFn subElts)
            (opArgs [.st s false, .st mean false])) with
        | .error e => .error e
        | .ok diff =>
          match asSt (handleDet hook false false {} (elementwiseFn sqElts)
              (opArgs [.st diff false])) with
          | .error e => .error e
          | .ok sq =>
            match (if 0 < s.eventDims then
                asSt (handleDet hook false false {} (sumBlockFn s.plateDims s.eventDims)
                  ⟨[.st sq false, .lst ((List.range s.eventDims).map (fun i => .other (s.plateDims + i)))], []⟩)
              else .ok sq) with
            | .error e => .error e
            | .ok r => reducePlates hook dt (.st r false) []

end Storch
