import Verif.Model.Relax

/-!
# DisARM (storch/method/arm.py:98-175)

The noise is an argument.  `step x` is `x > 0.0` on the elements, as 0 or 1; `sig l` is
`l.abs().sigmoid().detach()`; `half` is 0.5.
-/

namespace Storch
variable {α : Type _}

/-- `DisARM.sample_disarm` (arm.py:115-129) for a Bernoulli distribution.  The boolean tensor is one of 0 and 1. -/
def disarmTensor [AddGroup α] (step : α → α) (eps logits : Ten α) : Ten α :=
  ⟨(armTensor eps logits).shape, fun idx => step ((armTensor eps logits).get idx)⟩

/-- `Method.sample` (method.py:93-136) with the sampling method `MonteCarlo` and the function that `DisARM` installs
(arm.py:109-113).  `DisARM.plate_weighting` (arm.py:131-138) is not installed, so that the weights are those of
`MonteCarlo`. -/
def disarmSample [AddGroup α] [ValEq α] (inv : Nat → α) (step : α → α) (name : String) (n : Nat) (ctx : List (Plate α))
    (bernoulli : Bool) (logits : Operand α) (eps : Nat → Ten α) : Except Err (STen α × Plate α) :=
  if bernoulli = false then .error .value
  else monteCarlo inv name n ctx [logits] (fun k => disarmTensor step (eps k) logits.raw)

/-- `t[(None,) * pi + (slice(a, b),)]`: `None` adds a dimension, so that it is always the first dimension of the tensor
that is sliced.  arm.py:144-148. -/
def Ten.sliceFirst (t : Ten α) (pi a b : Nat) : Except Err (Ten α) :=
  match t.shape with
  | [] => .error .index
  | d :: s => .ok ⟨List.replicate pi 1 ++ (min b d - min a d) :: s, fun idx =>
      t.get (((idx.drop pi).headD 0 + a) :: (idx.drop pi).tail)⟩

/-- `z = torch.zeros_like(c); z[(None,) * pi + (slice(n),)] = x`: torch broadcasts `x` to the slice.
arm.py:151-155. -/
def fillSliced [Zero α] (shape : List Nat) (pi n : Nat) (x : Ten α) : Except Err (Ten α) :=
  match shape with
  | [] => .error .index
  | d :: s =>
    if Ten.bshapes [List.replicate pi 1 ++ min n d :: s, x.shape] = some (List.replicate pi 1 ++ min n d :: s) then
      .ok ⟨d :: s, fun idx => if idx.headD 0 < n then
        x.get (Ten.bidx x.shape ((List.replicate pi 0 ++ idx).drop (pi + idx.length - x.ndim))) else 0⟩
    else .error .torch

/-- `weighting.detach() * logits` (arm.py:150-152) on the elements of `b`, `b_tilde` and `logits`. -/
def disarmElts [CommRing α] [ValEq α] (sig : α → α) : List α → α
  | [b, b', l] => (if ValEq.veq b b' then 0 else if ValEq.veq b' 1 then -1 else 1) * sig l * l
  | _ => 0

/-- `DisARM.comp_estimator` (arm.py:140-157) on the unwrapped tensors; `pi` is `plate_index`.  The first tensor of
the result is `log_prob`, the second `baseline`. -/
def disarmFn [CommRing α] [ValEq α] (sig : α → α) (pi n : Nat) : Fn α := fun a =>
  match a.pos with
  | [.torch z, .torch c, .torch l] =>
    match c.sliceFirst pi n (2 * n) with
    | .error e => .error e
    | .ok f' =>
      match z.sliceFirst pi 0 n with
      | .error e => .error e
      | .ok b =>
        match z.sliceFirst pi n (2 * n) with
        | .error e => .error e
        | .ok b' =>
          match Ten.elementwise (disarmElts sig) [b, b', l] with
          | .error e => .error e
          | .ok w =>
            match fillSliced z.shape pi n w with
            | .error e => .error e
            | .ok lp =>
              match fillSliced c.shape pi n f' with
              | .error e => .error e
              | .ok base => .ok (.tup [.torch lp, .torch base])
  | _ => .error .type

variable [ValEq α]

/-- `DisARM.estimator` (arm.py:159-175).  The object itself and the numbers passed to `comp_estimator` are left out of
the arguments of the wrapper, which passes them on. -/
def disarmEstimator [CommRing α] (hook : UnwrapHook α) (sig : α → α) (half : α) (name : String)
    (logits : Operand α) (tensor cost : STen α) : Except Err (Option (Operand α) × Option (Operand α)) :=
  match tensor.getPlate name with
  | .error e => .error e
  | .ok plate =>
    match tensor.plateDimIndex plate.name with
    | .error e => .error e
    | .ok index =>
      match handleDet hook false false {} (disarmFn sig index (plate.n / 2))
          (opArgs [.st tensor true, .st cost false, logits]) with
      | .error e => .error e
      | .ok (.tup [.st m _, .st b _]) =>
        match sumIndices hook m with
        | .error e => .error e
        | .ok s =>
          match opCall hook (fun xs => half * xs.headD 0) [.st s false] with
          | .error e => .error e
          | .ok lp => .ok (some lp, some (.st b false))
      | .ok _ => .error .type

/-- The program
```
x = DisARM(name, n_samples=n)(Bernoulli(logits=logits))
add_cost(x.sum(x.event_dim_indices), "cost")
surrogate_loss()
```
for given noise.  The calls are arm.py:98-175, inference.py:86-102 and inference.py:105-206.  `add_cost` rejects costs with
event dimensions (inference.py:90-94; the case of one event dimension of size one does not occur after the sum). -/
def disarmProgram [CommRing α] [Autograd α] (hook : UnwrapHook α) (inv : Nat → α) (step sig : α → α) (half : α) (name : String)
    (n : Nat) (logits : Operand α) (eps : Nat → Ten α) : Except Err (STen α) :=
  match disarmSample inv step name n [] true logits eps with
  | .error e => .error e
  | .ok (x, _) =>
    match sumIndices hook x with
    | .error e => .error e
    | .ok c =>
      if c.eventShape ≠ [] then .error .value
      else surrogateLoss hook [(c, [⟨x, false, disarmEstimator hook sig half name logits⟩])]

end Storch
