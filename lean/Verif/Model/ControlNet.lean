import Verif.Model.Relax

/-!
# The control network of the library (`Baseline`, storch/method/relax.py:29-43)

Linear layers are given by their weights; `F.relu` is a function on the elements.
-/

namespace Storch
variable {α : Type _}

/-- `in_dim` (relax.py:30, typing.py:24): a number or a sequence of numbers. -/
inductive InDim
  | int (d : Nat)
  | dims (ds : List Nat)

/-- The attributes of a `Baseline` (relax.py:30-38), with the weights and biases of its two linear layers. -/
structure ControlNet (α : Type _) where
  reshape : Bool
  inDim : Nat
  w1 : Ten α
  b1 : Ten α
  w2 : Ten α
  b2 : Ten α

/-- `Baseline.__init__` (relax.py:30-38); `w1`, `b1`, `w2`, `b2` are the initial weights.  `reduce(mul, [])` raises.
Simplified: negative sizes, which torch refuses, do not exist here. -/
def ControlNet.make (d : InDim) (w1 b1 w2 b2 : List Nat → α) : Except Err (ControlNet α) :=
  match d with
  | .int d => .ok ⟨false, d, ⟨[50, d], w1⟩, ⟨[50], b1⟩, ⟨[1, 50], w2⟩, ⟨[1], b2⟩⟩
  | .dims [] => .error .type
  | .dims (d :: ds) =>
    let n := ds.foldl (· * ·) d
    .ok ⟨true, n, ⟨[50, n], w1⟩, ⟨[50], b1⟩, ⟨[1, 50], w2⟩, ⟨[1], b2⟩⟩

/-- `F.linear(x, w, b)`, called by `torch.nn.Linear` (relax.py:37-38, 43). -/
def Ten.linear [AddCommMonoid α] [Mul α] (x w b : Ten α) : Except Err (Ten α) :=
  match w.shape with
  | [h, d] =>
    if x.shape.getLast? = some d then
      .ok ⟨x.shape.dropLast ++ [h], fun idx =>
        (∑ i ∈ Finset.range d, x.get (idx.dropLast ++ [i]) * w.get [idx.getLastD 0, i]) + b.get [idx.getLastD 0]⟩
    else .error .torch
  | _ => .error .torch

/-- `F.linear` as a torch function.  relax.py:43. -/
def linearFn [AddCommMonoid α] [Mul α] : Fn α := fun a =>
  match a.pos with
  | [.torch x, .torch w, .torch b] =>
    match x.linear w b with
    | .ok r => .ok (.torch r)
    | .error e => .error e
  | _ => .error .type

/-- `F.relu` as a torch function.  relax.py:43. -/
def reluFn (relu : α → α) : Fn α := fun a =>
  match a.pos with
  | [.torch x] => .ok (.torch (x.map relu))
  | _ => .error .type

/-- `tensor.squeeze(-1)` on torch tensors.  relax.py:43. -/
def Ten.squeezeLast (t : Ten α) : Ten α :=
  if t.shape.getLast? = some 1 then ⟨t.shape.dropLast, fun idx => t.get (idx ++ [0])⟩ else t

/-- `squeeze(-1)` as a torch function; `.other 1` stands for the number -1.  relax.py:43. -/
def squeezeLastFn : Fn α := fun a =>
  match a.pos with
  | [.torch x, .other 1] => .ok (.torch x.squeezeLast)
  | _ => .error .type

/-- `tensor.reshape(s + (-1,))` on torch tensors: the last size is inferred.  relax.py:42. -/
def Ten.reshapeLast (t : Ten α) (s : List Nat) : Except Err (Ten α) :=
  if Ten.numel s = 0 then .error .torch
  else t.reshape (s ++ [Ten.numel t.shape / Ten.numel s])

/-- `reshape(s + (-1,))` as a torch function; the tuple is the second argument, of which only the length is looked
at here.  relax.py:42. -/
def reshapeLastFn (s : List Nat) : Fn α := fun a =>
  match a.pos with
  | [.torch x, .tup xs] =>
    if xs.length = s.length + 1 then
      match x.reshapeLast s with
      | .ok r => .ok (.torch r)
      | .error e => .error e
    else .error .type
  | _ => .error .type

/-- `Baseline.forward` (relax.py:40-43) on a torch tensor: torch tensors have no attribute `plate_dims`.  This is
how `compute_REBAR_cvs` calls it (relax.py:285-286). -/
def ControlNet.onTorch [AddCommMonoid α] [Mul α] (relu : α → α) (c : ControlNet α) (x : Ten α) : Except Err (Ten α) :=
  if c.reshape || decide (c.inDim ≤ 1) then .error .attribute
  else
    match x.linear c.w1 c.b1 with
    | .error e => .error e
    | .ok h =>
      match (h.map relu).linear c.w2 c.b2 with
      | .error e => .error e
      | .ok y => .ok y.squeezeLast

variable [ValEq α]

/-- `Baseline.forward` (relax.py:40-43) on a storch tensor: every step is a wrapped torch function
(tensor.py:244-292). -/
def ControlNet.forward [AddCommMonoid α] [Mul α] (hook : UnwrapHook α) (relu : α → α) (c : ControlNet α) (x : STen α) :
    Except Err (STen α) :=
  match (if c.reshape || decide (c.inDim ≤ 1) then
      asSt (handleDet hook false false {} (reshapeLastFn (x.ten.shape.take x.plateDims))
        ⟨[.st x false, .tup (((x.ten.shape.take x.plateDims) ++ [1]).map .other)], []⟩)
    else .ok x) with
  | .error e => .error e
  | .ok x =>
    match asSt (handleDet hook false false {} linearFn ⟨[.st x false, .torch c.w1, .torch c.b1], []⟩) with
    | .error e => .error e
    | .ok h =>
      match asSt (handleDet hook false false {} (reluFn relu) ⟨[.st h false], []⟩) with
      | .error e => .error e
      | .ok h =>
        match asSt (handleDet hook false false {} linearFn ⟨[.st h false, .torch c.w2, .torch c.b2], []⟩) with
        | .error e => .error e
        | .ok y => asSt (handleDet hook false false {} squeezeLastFn ⟨[.st y false, .other 1], []⟩)

/-- `LAX.estimator` (relax.py:86-124): the control network at the sample, the log-probability, its sum over the event
dimensions and the difference with the cost are computed; then line 103 loops over `derivs`, which is defined nowhere. -/
def laxEstimator [CommRing α] (hook : UnwrapHook α) (cPhi : STen α → Except Err (Operand α))
    (logProb : STen α → Except Err (STen α)) (tensor cost : STen α) :
    Except Err (Option (Operand α) × Option (Operand α)) :=
  match cPhi tensor with
  | .error e => .error e
  | .ok o =>
    match logProb tensor with
    | .error e => .error e
    | .ok lp =>
      match sumIndices hook lp with
      | .error e => .error e
      | .ok _ =>
        match opCall hook subElts [.st cost false, o] with
        | .error e => .error e
        | .ok _ => .error .name

/-- A tensor sampled with `LAX`, as the surrogate loss finds it.  relax.py:78-128, inference.py:166-186. -/
def laxSampled [CommRing α] (hook : UnwrapHook α) (cPhi : STen α → Except Err (Operand α))
    (logProb : STen α → Except Err (STen α)) (tensor : STen α) : Sampled α :=
  ⟨tensor, false, laxEstimator hook cPhi logProb⟩

end Storch
