import Verif.Model.Sampling
import Verif.Model.Arm

/-!
# RELAX and REBAR (storch/method/relax.py:166-382)

The functions that are passed in or that draw random numbers (`discretize`, `conditional_gumbel_rsample`, the control
network `c_phi`, `distribution.log_prob`) are arguments.  The Gumbel samples themselves are modelled in
`Verif.Model.Gumbel`.
-/

namespace Storch
variable {α : Type _}

/-- `RELAX.plate_weighting` (relax.py:239-249): `m` is `tensor.n`, `inv n` is `1.0 / n`. -/
def relaxWeights [Zero α] (inv : Nat → α) (rebar : Bool) (m : Nat) : Except Err (Option (Ten α)) :=
  if rebar then
    if m / 3 = 0 then .error .zeroDiv
    else .ok (some ⟨[m], fun idx => if idx.headD 0 < m / 3 then inv (m / 3) else 0⟩)
  else .ok none

/-- `torch.cat([a, b, c], 0)` for tensors of one shape (relax.py:234). -/
def cat3 (a b c : Ten α) : Ten α :=
  let n := a.shape.headD 0
  ⟨(n + n + n) :: a.shape.tail, fun idx =>
    if idx.headD 0 < n then a.get idx
    else if idx.headD 0 < n + n then b.get ((idx.headD 0 - n) :: idx.tail)
    else c.get ((idx.headD 0 - (n + n)) :: idx.tail)⟩

/-- `RELAX.sample_gumbel` (relax.py:214-237): `relaxed` is the Gumbel-softmax sample; `discretize` and the conditional
sample are functions on torch tensors. -/
def relaxTensor (rebar : Bool) (disc cond : Ten α → Ten α) (relaxed : Ten α) : Ten α :=
  if rebar then cat3 (disc relaxed) relaxed (cond (disc relaxed)) else relaxed

/-- `Method.sample` (method.py:93-136) with `MonteCarlo` and the two functions that `RELAX` installs
(relax.py:187-192): the tensor and its plate, with the weights set if there are any. -/
def relaxSample [Zero α] [ValEq α] (inv : Nat → α) (name : String) (n : Nat) (ctx : List (Plate α)) (params : List (Operand α))
    (rebar : Bool) (disc cond : Ten α → Ten α) (relaxed : Nat → Ten α) : Except Err (STen α × Plate α) :=
  match monteCarlo inv name n ctx params (fun k => relaxTensor rebar disc cond (relaxed k)) with
  | .error e => .error e
  | .ok (s, p) =>
    match relaxWeights inv rebar p.n with
    | .error e => .error e
    | .ok none => .ok (s, p)
    | .ok (some w) =>
      let plate := Plate.mk p.name p.n (.torch w) p.kind p.parents
      .ok (⟨s.ten, plate :: s.plates.tail, s.plateDims⟩, plate)

/-- `t[(slice(None),) * pi + (slice(a, a + n),)]` where the dimension has at least `a + n` positions.
relax.py:273-281. -/
def Ten.narrow (t : Ten α) (pi a n : Nat) : Ten α :=
  ⟨t.shape.set pi n, fun idx => t.get (idx.set pi (idx.getD pi 0 + a))⟩

/-- `z = torch.zeros_like(c); z[(slice(None),) * pi + (slice(n),)] = x`: torch broadcasts `x` to the slice.
relax.py:288-291. -/
def fillFirst [Zero α] (shape : List Nat) (pi n : Nat) (x : Ten α) : Except Err (Ten α) :=
  if Ten.bshapes [shape.set pi n, x.shape] = some (shape.set pi n) then
    .ok ⟨shape, fun idx => if idx.getD pi 0 < n then
      x.get (Ten.bidx x.shape (idx.drop (idx.length - x.ndim))) else 0⟩
  else .error .torch

/-- `compute_REBAR_cvs` (relax.py:267-292) on the unwrapped tensors; the control network sees torch tensors.
Simplified: sizes along the plate other than `3 * n` (which `sample_gumbel` does not produce) raise here. -/
def rebarFn [AddCommMonoid α] (cPhi : Ten α → Except Err (Ten α)) (pi n : Nat) : Fn α := fun a =>
  match a.pos with
  | [.torch z, .torch c] =>
    if z.shape[pi]? = some (3 * n) ∧ c.shape[pi]? = some (3 * n) then
      match cPhi (z.narrow pi n n) with
      | .error e => .error e
      | .ok r =>
        match Ten.elementwise List.sum [r, c.narrow pi n n] with
        | .error e => .error e
        | .ok r' =>
          match cPhi (z.narrow pi (2 * n) n) with
          | .error e => .error e
          | .ok s =>
            match Ten.elementwise List.sum [s, c.narrow pi (2 * n) n] with
            | .error e => .error e
            | .ok s' =>
              match fillFirst c.shape pi n r' with
              | .error e => .error e
              | .ok x =>
                match fillFirst c.shape pi n s' with
                | .error e => .error e
                | .ok y => .ok (.tup [.torch x, .torch y])
    else .error .torch
  | _ => .error .type

variable [ValEq α]

/-- `log_prob.sum(log_prob.event_dim_indices)` (relax.py:328): the torch method gets a list of dimensions and sums
over all of them when that list is empty. -/
def sumIndicesFn [AddCommMonoid α] (i k : Nat) : Fn α := fun a =>
  match a.pos with
  | [.torch t, .lst []] => .ok (.torch (.scalar ((allIdx t.shape).map t.get).sum))
  | [.torch t, .lst (_ :: _)] =>
    match t.sumBlock i k with
    | .ok r => .ok (.torch r)
    | .error e => .error e
  | _ => .error .type

/-- The call of `sumIndicesFn` on a storch tensor.  relax.py:328. -/
def sumIndices [AddCommMonoid α] (hook : UnwrapHook α) (t : STen α) : Except Err (STen α) :=
  asSt (handleDet hook false false {} (sumIndicesFn t.plateDims t.eventDims)
    ⟨[.st t false, .lst ((List.range t.eventDims).map (fun i => .other (t.plateDims + i)))], []⟩)

/-- `(2 - box) * x` (relax.py:332) on the elements. -/
def twoMinusElts [Ring α] : List α → α
  | [b, x] => (2 - b) * x
  | _ => 0

/-- The control networks of `compute_estimator` without rebar (relax.py:295-305): the log-probability of the hard
sample, `c_phi(relaxed_sample)` and `c_phi(cond_sample)`. -/
def relaxParts (disc cond : STen α → Except Err (STen α)) (cPhi : STen α → Except Err (Operand α))
    (logProb : STen α → Except Err (STen α)) (tensor : STen α) : Except Err (STen α × Operand α × Operand α) :=
  match disc tensor with
  | .error e => .error e
  | .ok hard =>
    match cond hard with
    | .error e => .error e
    | .ok c =>
      match cPhi tensor with
      | .error e => .error e
      | .ok cz =>
        match cPhi c with
        | .error e => .error e
        | .ok ct =>
          match logProb hard with
          | .error e => .error e
          | .ok lp => .ok (lp, cz, ct)

/-- `compute_estimator` with rebar (relax.py:265-294). -/
def rebarParts [AddCommMonoid α] (hook : UnwrapHook α) (cPhi : Ten α → Except Err (Ten α))
    (logProb : STen α → Except Err (STen α)) (pi n : Nat) (tensor cost : STen α) :
    Except Err (STen α × Operand α × Operand α) :=
  match logProb tensor with
  | .error e => .error e
  | .ok lp =>
    match handleDet hook false false {} (rebarFn cPhi pi n) (opArgs [.st tensor true, .st cost false]) with
    | .error e => .error e
    | .ok (.tup [.st cz _, .st ct _]) => .ok (lp, .st cz false, .st ct false)
    | .ok _ => .error .type

/-- The end of `RELAX.estimator` (relax.py:326-333); `eta` is a torch tensor without dimensions. -/
def relaxCombine [CommRing α] [Autograd α] (hook : UnwrapHook α) (eta : Operand α) :
    STen α × Operand α × Operand α → Except Err (Option (Operand α) × Option (Operand α)) := fun ⟨lp0, cz0, ct0⟩ =>
  match opCall hook List.prod [eta, cz0] with
  | .error e => .error e
  | .ok cz =>
    match opCall hook List.prod [eta, ct0] with
    | .error e => .error e
    | .ok ct =>
      match sumIndices hook lp0 with
      | .error e => .error e
      | .ok lp =>
        match opCall hook detachElts [cz] with
        | .error e => .error e
        | .ok d =>
          match opCall hook subElts [cz, d] with
          | .error e => .error e
          | .ok a =>
            match opCall hook subElts [a, ct] with
            | .error e => .error e
            | .ok b =>
              match magicBox hook (.st lp false) with
              | .error e => .error e
              | .ok box =>
                match opCall hook detachElts [ct] with
                | .error e => .error e
                | .ok dt =>
                  match opCall hook twoMinusElts [box, dt] with
                  | .error e => .error e
                  | .ok m =>
                    match opCall hook List.sum [b, m] with
                    | .error e => .error e
                    | .ok cv => .ok (some (.st lp false), some cv)

/-- relax.py:314-317. -/
def relaxIndex (name : String) (tensor : STen α) : Except Err (Plate α × Option Nat) :=
  match tensor.getPlate name with
  | .error e => .error e
  | .ok plate =>
    if 1 < plate.n then
      match tensor.plateDimIndex plate.name with
      | .error e => .error e
      | .ok i => .ok (plate, some i)
    else .ok (plate, none)

/-- `RELAX.estimator` (relax.py:307-333) without rebar. -/
def relaxEstimator [CommRing α] [Autograd α] (hook : UnwrapHook α) (eta : Operand α)
    (disc cond : STen α → Except Err (STen α)) (cPhi : STen α → Except Err (Operand α))
    (logProb : STen α → Except Err (STen α)) (name : String) (tensor _cost : STen α) :
    Except Err (Option (Operand α) × Option (Operand α)) :=
  match relaxIndex name tensor with
  | .error e => .error e
  | .ok _ =>
    match relaxParts disc cond cPhi logProb tensor with
    | .error e => .error e
    | .ok r => relaxCombine hook eta r

/-- `RELAX.estimator` (relax.py:307-333) with rebar.  A plate of size one, for which `plate_index` is -1, is not
modelled: `sample_gumbel` makes plates of size `3 * n`. -/
def rebarEstimator [CommRing α] [Autograd α] (hook : UnwrapHook α) (eta : Operand α)
    (cPhi : Ten α → Except Err (Ten α)) (logProb : STen α → Except Err (STen α)) (name : String)
    (tensor cost : STen α) : Except Err (Option (Operand α) × Option (Operand α)) :=
  match relaxIndex name tensor with
  | .error e => .error e
  | .ok (_, none) => .error .notImplemented
  | .ok (plate, some pi) =>
    match rebarParts hook cPhi logProb pi (plate.n / 3) tensor cost with
    | .error e => .error e
    | .ok r => relaxCombine hook eta r

/-- A tensor sampled with `RELAX`, as the surrogate loss finds it.  relax.py:307-333, inference.py:166-186. -/
def relaxSampled [CommRing α] [Autograd α] (hook : UnwrapHook α) (eta : Operand α)
    (disc cond : STen α → Except Err (STen α)) (cPhi : STen α → Except Err (Operand α))
    (logProb : STen α → Except Err (STen α)) (name : String) (tensor : STen α) : Sampled α :=
  ⟨tensor, false, relaxEstimator hook eta disc cond cPhi logProb name⟩

/-- A tensor sampled with `RELAX` with rebar, or with `REBAR`.  relax.py:307-333, 365-382, inference.py:166-186. -/
def rebarSampled [CommRing α] [Autograd α] (hook : UnwrapHook α) (eta : Operand α)
    (cPhi : Ten α → Except Err (Ten α)) (logProb : STen α → Except Err (STen α)) (name : String)
    (tensor : STen α) : Sampled α :=
  ⟨tensor, false, rebarEstimator hook eta cPhi logProb name⟩

/-- The control variate of `REBAR` (relax.py:380-381): `lambda x: 0.0`. -/
def zeroControl [Zero α] : Ten α → Except Err (Ten α) := fun _ => .ok (.scalar 0)

end Storch
