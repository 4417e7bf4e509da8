import Verif.Model.Sampling

/-!
# Enumeration (storch/sampling/expect.py, storch/method/method.py:93-136)
-/

namespace Storch

section
variable {α : Type _}

/-- expect.py:37-44: the loop over `sizes`.  The state is `amt_samples_used` and `cross_products`, where `None` is
0 (the test `not cross_products` does not distinguish them). -/
def enumSizes : List Nat → Nat × Nat → Nat × Nat
  | [], s => s
  | d :: ds, (amt, cross) => enumSizes ds (amt ^ d, if cross = 0 then d else cross ^ d)

/-- `tensor[i] = v` for a row of the given shape: `v` is broadcast; a leading dimension of size one too many is
dropped.  Used at expect.py:54-58. -/
def setRow (v : Ten α) (target : List Nat) : Except Err (Ten α) :=
  let v' := if target.length < v.ndim then squeeze0 v else v
  if target.length < v'.ndim then .error .torch
  else Ten.expand ⟨Ten.padL target.length v'.shape, fun idx => v'.get (idx.drop (target.length - v'.ndim))⟩ target

/-- `torch.cat(t, dim=0)` of rows of the support (expect.py:54-58), each of shape `(1,) + event_shape`; `choice`
are the numbers of the rows. -/
def catRows (support : Ten α) (choice : List Nat) : Ten α :=
  ⟨choice.length :: support.shape.tail, fun idx => support.get (choice.getD (idx.headD 0) 0 :: idx.tail)⟩

/-- The assignments of the loop in expect.py:54-58. -/
def setRows (support : Ten α) (target : List Nat) : List (List Nat) → Except Err (List (Ten α))
  | [] => .ok []
  | choice :: cs =>
    match setRow (catRows support choice) target with
    | .error e => .error e
    | .ok r =>
      match setRows support target cs with
      | .error e => .error e
      | .ok rs => .ok (r :: rs)

/-- expect.py:25-60: the tensor with all outcomes.  `support` is `distr.enumerate_support(expand=False)` without
its dimensions of size one for the batch, of shape `(E,) + event_shape`; `batch` is `distr.batch_shape`, `batchLen`
the number of plates.  A support with one element has no dimension left after `squeeze()`, so that `unsqueeze(1)`
raises.  `itertools.product(range(E), repeat=cross)` lists the indices of a tensor with `cross` dimensions of size
`E` in row-major order.  Rows that are not assigned stay zero. -/
def enumTensor [Zero α] (support : Ten α) (batch : List Nat) (batchLen budget : Nat) : Except Err (Ten α) :=
  match support.shape with
  | [] => .error .index
  | E :: ev =>
    let sizes := batch.drop batchLen
    let (amt, cross) := enumSizes sizes (E, if sizes = [] then 1 else 0)
    if budget < amt then .error .value
    else if E = 1 then .error .index
    else if cross = 0 then .error .torch
    else
      match setRows support (batch ++ ev) (allIdx (List.replicate cross E)) with
      | .error e => .error e
      | .ok rows =>
        if amt < rows.length then .error .index
        else .ok ⟨amt :: (batch ++ ev), fun idx =>
          match rows[idx.headD 0]? with
          | some r => r.get idx.tail
          | none => 0⟩

variable [ValEq α]

/-- `Enumerate.weighting_function` (expect.py:78-87): the exponential of the log-probability summed over the
dimensions after the plates. -/
def enumWeight [Ring α] [Autograd α] (hook : UnwrapHook α) (logProb : STen α → Except Err (STen α)) (t : STen α) :
    Except Err (STen α) :=
  match logProb t with
  | .error e => .error e
  | .ok lp0 =>
    match (if lp0.plateDims < lp0.ten.ndim then
        asSt (handleDet hook false false {} (sumBlockFn t.plateDims (lp0.ten.ndim - t.plateDims))
          ⟨[.st lp0 false, .lst ((List.range (lp0.ten.ndim - t.plateDims)).map
            (fun i => .other (t.plateDims + i)))], []⟩)
      else .ok lp0) with
    | .error e => .error e
    | .ok lp =>
      match opCall hook expElts [.st lp false] with
      | .error e => .error e
      | .ok (.st w _) => .ok w
      | .ok (.torch _) => .error .attribute

/-- `Expect(name)(distr)`: `Method.sample` (method.py:93-136) with the sampling method `Enumerate`
(expect.py:16-76).  `params` are the parameters of the distribution, `batch` its batch shape.  The plate starts
with its default weight and is the same object after the weight is set. -/
def enumerate [Ring α] [Autograd α] (hook : UnwrapHook α) (inv : Nat → α) (name : String) (budget : Nat)
    (ctx : List (Plate α)) (params : List (Operand α)) (support : Ten α) (batch : List Nat)
    (logProb : STen α → Except Err (STen α)) : Except Err (STen α × Plate α) :=
  let plates := methodPlates ctx params
  if plates.any (fun p => p.name == name) then .error .value
  else
    match enumTensor support batch plates.length budget with
    | .error e => .error e
    | .ok t =>
      if t.shape.headD 0 = 0 then .error .zeroDiv
      else
        match STen.mk' t (mcPlate inv name (t.shape.headD 0) plates :: plates) with
        | .error e => .error e
        | .ok s =>
          match enumWeight hook logProb s with
          | .error e => .error e
          | .ok w =>
            let plate := Plate.mk name (t.shape.headD 0) (.storch w.ten (w.plates.map Plate.name)) .plain plates
            .ok (⟨s.ten, plate :: plates, s.plateDims⟩, plate)

end

end Storch
