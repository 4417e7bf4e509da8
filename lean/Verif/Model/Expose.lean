import Verif.Model.Wrap

/-!
# What a storch tensor lets Python see

Attribute access, operators and torch functions on storch tensors (storch/tensor.py:243-291, 567-762,
storch/excluded_init.py).  The torch library is a parameter: what is modelled is how storch looks names up
and what it does with the result.
-/

namespace Storch
variable {α : Type _}

/-- `_exception_init.union(_exception_tensor)` (excluded_init.py:42-54, 81-97, 131).  A missing comma makes
one string out of `"normal_"` and `"q_per_channel_axis"` (line 89). -/
def exceptionMethods : List String :=
  ["allclose", "equal", "is_complex", "is_nonzero", "q_per_channel_axis", "q_scale", "q_zero_point",
   "bernouilli", "multinomial", "normal", "poisson",
   "bernoulli", "bernoulli_", "item", "normal_q_per_channel_axis", "random_", "stride", "to_list", "tolist",
   "uniform_"]

/-- `_excluded_tensor.union(_excluded_function).union(_excluded_init)` (excluded_init.py:1-27, 64, 67-79,
132). -/
def excludedMethods : List String :=
  ["_debug_has_internal_overlap", "_nnpack_available", "_use_cudnn_ctc_loss", "can_cast", "empty",
   "empty_strided", "from_file", "from_numpy", "full", "get_default_dtype", "get_num_interop_threads",
   "get_num_threads", "hamming_window", "hann_window", "logspace", "ones", "promote_types", "range",
   "tril_indices", "triu_indices", "set_flush_denormal", "set_num_interop_threads", "set_num_threads",
   "zeros", "compiled_with_cxx11_abi", "get_softmax_dim", "assert_int-or-pair",
   "__getitem__", "__setitem__", "__class__", "__delattr__", "__delitem__", "__dir__", "__format__",
   "__getattribute__", "__init_subclass__", "__setattr__", "__subclasshook__"]

/-- `_expand_init` (excluded_init.py:62, 134). -/
def expandMethods : List String := ["binary_cross_entropy"]

/-- A function or an attribute of torch: `__name__` and what calling it does.
`func` and `attr` of tensor.py:251, 278-280. -/
structure TorchFn (α : Type _) where
  name : String
  fn : Fn α

/-- An attribute of the class `torch.Tensor`.  tensor.py:278-279. -/
inductive Attr (α : Type _)
  | data                    -- not callable (properties such as `T`)
  | callable (f : TorchFn α)

/-- The torch library.  What tensor.py:243-291 reads of torch. -/
structure TorchApi (α : Type _) where
  /-- `torch.f` or `torch.nn.functional.f` -/
  function : String → Option (TorchFn α)
  /-- `torch.Tensor.f` -/
  attr : String → Option (Attr α)

section
variable [ValEq α]

/-- The state the wrapper reads: `_context_stochastic` and `_ignore_wrap`.  wrappers.py:17, 22. -/
structure Flags where
  ctxStoch : Bool
  ignoreWrap : Bool

/-- `Tensor.__torch_function__` (tensor.py:243-268). -/
def torchFunction (hook : UnwrapHook α) (fl : Flags) (f : TorchFn α) (a : Args α) : Except Err (Val α) :=
  if f.name ∈ exceptionMethods then .error .expose
  else if f.name ∈ excludedMethods then f.fn a
  else if f.name ∈ expandMethods then
    handleDet hook fl.ctxStoch fl.ignoreWrap { expandPlates := true } f.fn a
  else handleDet hook fl.ctxStoch fl.ignoreWrap {} f.fn a

/-- What attributes defined by the class `storch.Tensor` itself do when they are called (or read, for
properties).  tensor.py:294-327, 446-762. -/
inductive Own
  /-- raises -/
  | raises (e : Err)
  /-- calls a torch function on the tensor and the arguments, which dispatches to `__torch_function__` -/
  | torch (f : String)
  /-- a call wrapped by `storch.deterministic` -/
  | wrapped (lBroadcast : Bool)
  /-- names, shapes, dtypes, graph structure and other things that do not depend on the elements -/
  | info
  /-- the tensor itself -/
  | self
  /-- the wrapped torch tensor (`_tensor`, `detach_tensor()`) its gradient or a printed form: explicit unwrapping -/
  | unwrap
  deriving DecidableEq

/-- The attributes of `storch.Tensor` (tensor.py:171-241, 294-327, 371-430, 446-762). -/
def ownAttrs : List (String × Own) :=
  [("__bool__", .raises .expose), ("__float__", .raises .expose), ("__int__", .raises .expose),
   ("__long__", .raises .expose), ("__nonzero__", .raises .expose), ("__index__", .raises .expose),
   ("__array__", .raises .expose), ("__array_wrap__", .raises .expose), ("numpy", .raises .expose),
   ("__contains__", .raises .expose), ("__iter__", .raises .notImplemented),
   ("__deepcopy__", .raises .notImplemented), ("__getstate__", .raises .notImplemented),
   ("__setstate__", .raises .notImplemented), ("detach_", .raises .notImplemented),
   ("backward", .raises .notImplemented),
   ("__add__", .torch "add"), ("__radd__", .torch "add"), ("__sub__", .torch "sub"), ("__rsub__", .torch "sub"),
   ("__mul__", .torch "mul"), ("__rmul__", .torch "mul"), ("__matmul__", .torch "matmul"),
   ("__rmatmul__", .torch "matmul"), ("__pow__", .torch "pow"), ("__rpow__", .torch "pow"),
   ("__div__", .torch "div"), ("__rdiv__", .torch "div"), ("__mod__", .torch "remainder"),
   ("__rmod__", .torch "remainder"), ("__truediv__", .torch "true_divide"),
   ("__rtruediv__", .torch "true_divide"), ("__floordiv__", .torch "floor_divide"),
   ("__rfloordiv__", .torch "floor_divide"), ("__abs__", .torch "abs"), ("__and__", .torch "logical_and"),
   ("__rand__", .torch "logical_and"), ("__ge__", .torch "ge"), ("__gt__", .torch "gt"), ("__le__", .torch "le"),
   ("__lt__", .torch "lt"), ("ne", .torch "ne"), ("__neg__", .torch "neg"), ("__or__", .torch "logical_or"),
   ("__ror__", .torch "logical_or"), ("__xor__", .torch "logical_xor"), ("__rxor__", .torch "logical_xor"),
   ("__eq__", .wrapped true), ("eq", .wrapped true), ("__invert__", .wrapped true), ("__lshift__", .wrapped true),
   ("__rshift__", .wrapped true), ("__rrshift__", .wrapped true), ("__getitem__", .wrapped false),
   ("__setitem__", .wrapped false),
   ("__pos__", .self),
   ("_tensor", .unwrap), ("detach_tensor", .unwrap), ("grad", .unwrap),
   ("name", .info), ("is_sparse", .info), ("__str__", .unwrap), ("__repr__", .unwrap), ("__hash__", .info),
   ("walk_parents", .info), ("walk_children", .info), ("stochastic", .info), ("is_cost", .info),
   ("parents", .info), ("requires_grad", .info), ("plate_shape", .info), ("size", .info), ("shape", .info),
   ("is_cuda", .info), ("dtype", .info), ("layout", .info), ("device", .info), ("dim", .info),
   ("ndimension", .info), ("ndim", .info), ("register_hook", .info), ("event_dim_indices", .info),
   ("get_plate", .info), ("get_plate_dim_index", .info), ("iterate_plate_indices", .info),
   ("multi_dim_plates", .info), ("is_in", .info), ("__len__", .info), ("plates", .info), ("event_shape", .info),
   ("event_dims", .info), ("plate_dims", .info)]

/-- The results of an access: a value that went through torch, or something that is none of the model's
values.  tensor.py:270-291. -/
inductive Access (α : Type _)
  | value (v : Val α)
  | info
  | unwrapped

/-- `x.f(*args)`, where `a` are the arguments with `x` in front.  Python looks for `f` on the class of `x`
first and calls `__getattr__` (tensor.py:270-291) when it is not there.  `own` is the function behind an own
attribute that is wrapped.  Attributes of `torch.Tensor` that are not callable give None; a callable that is
excluded is returned unbound, so the call does not receive `x`. -/
def callMethod (api : TorchApi α) (hook : UnwrapHook α) (fl : Flags) (own : Fn α) (f : String) (x : STen α)
    (stochastic : Bool) (pos : List (Val α)) (kw : List (String × Val α)) : Except Err (Access α) :=
  let bind (r : Except Err (Val α)) : Except Err (Access α) :=
    match r with
    | .error e => .error e
    | .ok v => .ok (.value v)
  let a : Args α := ⟨.st x stochastic :: pos, kw⟩
  match dget ownAttrs f with
  | some (.raises e) => .error e
  | some (.torch g) =>
    match api.function g with
    | some tf => bind (torchFunction hook fl tf a)
    | none => .error .attribute
  | some (.wrapped lb) => bind (handleDet hook fl.ctxStoch fl.ignoreWrap { lBroadcast := lb } own a)
  | some .self => .ok (.value (.st x stochastic))
  | some .info => .ok .info
  | some .unwrap => .ok .unwrapped
  | none =>
    match api.attr f with
    | none => .error .attribute
    | some .data => .error .type       -- `None` is not callable
    | some (.callable tf) =>
      if tf.name ∈ exceptionMethods then .error .expose
      else if tf.name ∈ excludedMethods then bind (tf.fn ⟨pos, kw⟩)
      else bind (handleDet hook fl.ctxStoch fl.ignoreWrap {} tf.fn a)

/-- The ways Python itself converts an object, and the method each one calls on the class of the object:
`bool(x)` / `if x`, `int(x)`, `float(x)`, `operator.index(x)` / `l[x]`, `list(x)` / `for _ in x`,
`numpy.array(x)`, `y in x`, `copy.deepcopy(x)`, `pickle`; and `x != y`, for which `object.__ne__` negates
the result of `__eq__`.  storch defines them at tensor.py:446-762 or not at all. -/
inductive Conversion
  | bool | int | float | index | iter | array | contains | deepcopy | pickle | ne

/-- The method behind a conversion.  tensor.py:446-762 for those that storch defines. -/
def Conversion.method : Conversion → String
  | .bool => "__bool__"
  | .int => "__int__"
  | .float => "__float__"
  | .index => "__index__"
  | .iter => "__iter__"
  | .array => "__array__"
  | .contains => "__contains__"
  | .deepcopy => "__deepcopy__"
  | .pickle => "__getstate__"
  | .ne => "__eq__"

/-- A conversion: `not r` of a storch tensor or of a torch tensor with several elements raises.
tensor.py:446-762 for the methods that storch defines. -/
def convert (api : TorchApi α) (hook : UnwrapHook α) (fl : Flags) (own : Fn α) (c : Conversion) (x : STen α)
    (stochastic : Bool) (pos : List (Val α)) : Except Err (Access α) :=
  match c with
  | .ne =>
    match callMethod api hook fl own "__eq__" x stochastic pos [] with
    | .error e => .error e
    | .ok (.value (.st r s)) => callMethod api hook fl own "__bool__" r s [] []
    | .ok r => .ok r
  | c => callMethod api hook fl own c.method x stochastic pos []

end

end Storch
