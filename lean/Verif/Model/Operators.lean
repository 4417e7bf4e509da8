import Verif.Model.Surrogate

/-!
# Operators on storch tensors (storch/tensor.py:318-320, 646-761)
-/

namespace Storch
variable {α : Type _}

/-- The element-wise functions of torch behind the operators.  Called at tensor.py:646-761. -/
structure TorchOps (α : Type _) where
  add : α → α → α
  sub : α → α → α
  mul : α → α → α
  pow : α → α → α
  remainder : α → α → α
  trueDivide : α → α → α
  floorDivide : α → α → α
  logicalAnd : α → α → α
  logicalOr : α → α → α
  logicalXor : α → α → α
  bitwiseAnd : α → α → α
  bitwiseOr : α → α → α
  bitwiseXor : α → α → α
  shl : α → α → α
  shr : α → α → α
  ge : α → α → α
  gt : α → α → α
  le : α → α → α
  lt : α → α → α
  eq : α → α → α
  ne : α → α → α
  neg : α → α
  abs : α → α
  invert : α → α

/-- The binary operators of Python that act element by element.  tensor.py:318-320, 646-761; `@` is left out. -/
inductive BinOp
  | add | sub | mul | pow | mod | truediv | floordiv | and | or | xor | lshift | rshift | ge | gt | le | lt | eq | ne
  deriving DecidableEq

/-- The unary operators of Python that act element by element.  tensor.py:700-701, 715-717, 736-747. -/
inductive UnOp
  | neg | pos | abs | invert
  deriving DecidableEq

/-- An operand of a Python operator: a tensor or a number.  `other` of tensor.py:646-761. -/
inductive PyArg (α : Type _)
  | tensor (o : Operand α)
  | num (c : α)

/-- What the wrapper and torch see of it: torch treats a number as a tensor without dimensions.
wrappers.py:173-174. -/
def PyArg.operand : PyArg α → Operand α
  | .tensor o => o
  | .num c => .torch (Ten.scalar c)

/-- A binary function of the elements.  Called at wrappers.py:376. -/
def binElts [Zero α] (f : α → α → α) : List α → α
  | [a, b] => f a b
  | _ => 0

/-- A unary function of the elements.  Called at wrappers.py:376. -/
def unElts [Zero α] (f : α → α) : List α → α
  | [a] => f a
  | _ => 0

section
variable [ValEq α] [Zero α]

/-- `torch.f(a, b)` (tensor.py:243-268); none of the names is excluded or banned.  `takes` says for the two positions whether
torch accepts a number there; it raises `TypeError` otherwise. -/
def torchBin (hook : UnwrapHook α) (takes : Bool × Bool) (f : α → α → α) (a b : PyArg α) : Except Err (Val α) :=
  match a, b with
  | .num _, _ => if takes.1 then handleDet hook false false {} (elementwiseFn (binElts f)) (opArgs [a.operand, b.operand])
    else .error .type
  | _, .num _ => if takes.2 then handleDet hook false false {} (elementwiseFn (binElts f)) (opArgs [a.operand, b.operand])
    else .error .type
  | _, _ => handleDet hook false false {} (elementwiseFn (binElts f)) (opArgs [a.operand, b.operand])

/-- A method of a torch tensor called by a wrapped method, where the object is the second argument (tensor.py:726-728,
753-755): a number has no such method for tensors and returns `NotImplemented`, which the wrapper refuses
(wrappers.py:332-338). -/
def swappedBin (hook : UnwrapHook α) (takes : Bool × Bool) (f : α → α → α) (a b : PyArg α) : Except Err (Val α) :=
  match b with
  | .num _ => handleDet hook false false {} (fun _ => .ok (.other 0)) (opArgs [a.operand])
  | .tensor _ => torchBin hook takes (fun x y => f y x) a b

/-- The operator methods of `storch.Tensor`, called with `x` as `self`.  `takes op` says at which positions the torch function
accepts a number.  tensor.py:318-320, 646-761; `__lshift__` is defined twice and the second definition counts
(tensor.py:722-728), and there is no `__ne__`, so that Python negates the result of `__eq__`. -/
def storchBin (T : TorchOps α) (takes : BinOp → Bool × Bool) (hook : UnwrapHook α) (op : BinOp) (x b : PyArg α) :
    Except Err (Val α) :=
  match op with
  | .add => torchBin hook (takes op) T.add x b
  | .sub => torchBin hook (takes op) T.sub x b
  | .mul => torchBin hook (takes op) T.mul x b
  | .pow => torchBin hook (takes op) T.pow x b
  | .mod => torchBin hook (takes op) T.remainder x b
  | .truediv => torchBin hook (takes op) T.trueDivide x b
  | .floordiv => torchBin hook (takes op) T.floorDivide x b
  | .and => torchBin hook (takes op) T.logicalAnd x b
  | .or => torchBin hook (takes op) T.logicalOr x b
  | .xor => torchBin hook (takes op) T.logicalXor x b
  | .lshift => swappedBin hook (takes op) T.shl x b
  | .rshift => torchBin hook (takes op) T.shr x b
  | .ge => torchBin hook (takes op) T.ge x b
  | .gt => torchBin hook (takes op) T.gt x b
  | .le => torchBin hook (takes op) T.le x b
  | .lt => torchBin hook (takes op) T.lt x b
  | .eq => torchBin hook (takes op) T.eq x b
  | .ne =>
    match torchBin hook (takes op) T.eq x b with
    | .error e => .error e
    | .ok _ => .error .expose

/-- The reflected methods of `storch.Tensor`, called for `c op y` when `c` is a number.  tensor.py:649-761; the comparisons are
reflected by Python, and there is no `__rlshift__`. -/
def storchReflected (T : TorchOps α) (takes : BinOp → Bool × Bool) (hook : UnwrapHook α) (op : BinOp) (y c : PyArg α) :
    Except Err (Val α) :=
  match op with
  | .add => torchBin hook (takes op) T.add c y
  | .sub => torchBin hook (takes op) T.sub c y
  | .mul => torchBin hook (takes op) T.mul c y
  | .pow => torchBin hook (takes op) T.pow c y
  | .mod => torchBin hook (takes op) T.remainder c y
  | .truediv => torchBin hook (takes op) T.trueDivide c y
  | .floordiv => torchBin hook (takes op) T.floorDivide c y
  | .and => torchBin hook (takes op) T.logicalAnd c y
  | .or => torchBin hook (takes op) T.logicalOr c y
  | .xor => torchBin hook (takes op) T.logicalXor c y
  | .lshift => .error .type
  | .rshift => swappedBin hook (takes op) T.shr y c
  | .ge => storchBin T takes hook .le y c
  | .gt => storchBin T takes hook .lt y c
  | .le => storchBin T takes hook .ge y c
  | .lt => storchBin T takes hook .gt y c
  | .eq => storchBin T takes hook .eq y c
  | .ne => storchBin T takes hook .ne y c

/-- The unary operator methods of `storch.Tensor` (tensor.py:700-701, 715-717, 736-747). -/
def storchUn (T : TorchOps α) (hook : UnwrapHook α) (op : UnOp) (x : STen α) (s : Bool) : Except Err (Val α) :=
  match op with
  | .neg => handleDet hook false false {} (elementwiseFn (unElts T.neg)) (opArgs [.st x s])
  | .pos => .ok (.st x s)
  | .abs => handleDet hook false false {} (elementwiseFn (unElts T.abs)) (opArgs [.st x s])
  | .invert => handleDet hook false false {} (elementwiseFn (unElts T.invert)) (opArgs [.st x s])

/-- `a op b` in Python when one of the operands is a storch tensor: the method of the left operand, or the reflected method of
the right one when the left one is a number.  With a torch tensor on the left it is the operator of torch, which calls
`__torch_function__` (tensor.py:243-268); `torchOp` is its function of the elements. -/
def pyBin (T : TorchOps α) (takes : BinOp → Bool × Bool) (torchOp : BinOp → α → α → α) (hook : UnwrapHook α) (op : BinOp)
    (a b : PyArg α) : Except Err (Val α) :=
  match a with
  | .tensor (.st _ _) => storchBin T takes hook op a b
  | .tensor (.torch _) => torchBin hook (takes op) (torchOp op) a b
  | .num _ => storchReflected T takes hook op b a

end

end Storch
