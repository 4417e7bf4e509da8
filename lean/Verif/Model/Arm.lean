import Verif.Model.Sampling

/-!
# ARM (storch/method/arm.py:28-95)

The noise is an argument.  `logD z l` is `Logistic(l, 1.0).log_prob(z.detach())` on the elements, `half` is 0.5.
-/

namespace Storch
variable {α : Type _}

/-- `ARM.weighting_function` (arm.py:56-63): `m` is `tensor.n`, `inv n` is `1.0 / n`. -/
def armWeights [Zero α] (inv : Nat → α) (m : Nat) : Except Err (Ten α) :=
  if m / 2 = 0 then .error .zeroDiv
  else .ok ⟨[m], fun idx => if idx.headD 0 < m / 2 then inv (m / 2) else 0⟩

/-- `ARM.sample_arm` (arm.py:41-54) for a Bernoulli distribution: `eps` has the shape `(amt,) + logits.shape`. -/
def armTensor [AddGroup α] (eps logits : Ten α) : Ten α :=
  let amt := eps.shape.headD 0
  ⟨(amt + amt) :: logits.shape, fun idx =>
    if idx.headD 0 < amt then eps.get idx + logits.get idx.tail
    else -eps.get ((idx.headD 0 - amt) :: idx.tail) + logits.get idx.tail⟩

/-- The torch tensor underneath.  `tensor._tensor` (wrappers.py:80-127 unwraps the arguments of arm.py:68). -/
def Operand.raw : Operand α → Ten α
  | .st t _ => t.ten
  | .torch t => t

variable [ValEq α]

/-- `Method.sample` (method.py:93-136) with the sampling method `MonteCarlo` and the two functions that `ARM`
installs (arm.py:35-39): the tensor of `z` and `z_tilde`, and its plate with the weights set.  `eps k` is the noise
for `k` samples.  A distribution other than Bernoulli raises. -/
def armSample [AddGroup α] (inv : Nat → α) (name : String) (n : Nat) (ctx : List (Plate α)) (bernoulli : Bool)
    (logits : Operand α) (eps : Nat → Ten α) : Except Err (STen α × Plate α) :=
  if bernoulli = false then .error .value
  else
    match monteCarlo inv name n ctx [logits] (fun k => armTensor (eps k) logits.raw) with
    | .error e => .error e
    | .ok (s, p) =>
      match armWeights inv p.n with
      | .error e => .error e
      | .ok w =>
        let plate := Plate.mk p.name p.n (.torch w) p.kind p.parents
        .ok (⟨s.ten, plate :: s.plates.tail, s.plateDims⟩, plate)

/-- The function on the elements of one tensor (0 for another number of arguments).
For the comparison of arm.py:66. -/
def oneElt [Zero α] (f : α → α) : List α → α
  | [x] => f x
  | _ => 0

/-- `ARM.post_sample` (arm.py:65-66) and the tensor that is returned to the user (method.py:174-193); `step x` is
`(x > 0.0).float()` on the elements. -/
def armPost [Zero α] (hook : UnwrapHook α) (step : α → α) (s : STen α) : Except Err (STen α) :=
  match opCall hook (oneElt step) [.st s true] with
  | .error e => .error e
  | .ok (.torch _) => .error .attribute
  | .ok (.st r _) => STen.mk' r.ten s.plates

/-- `ARM.comp_estimator` (arm.py:68-81) on the unwrapped tensors; `pi` is `plate_index`.  The first tensor of the
result is `log_prob`, the second `baseline`.  Simplified: sizes along the plate other than `2 * n` (which
`sample_arm` does not produce) raise here, and so do logits that do not broadcast to the shape of `z`. -/
def armFn [Add α] [Mul α] [Zero α] (logD : α → α → α) (half : α) (pi n : Nat) : Fn α := fun a =>
  match a.pos with
  | [.torch z, .torch c, .torch l] =>
    if z.shape[pi]? = some (2 * n) ∧ c.shape[pi]? = some (2 * n) ∧
        Ten.bshapes [z.shape.set pi n, l.shape] = some (z.shape.set pi n) then
      .ok (.tup [
        .torch ⟨z.shape, fun idx => if idx.getD pi 0 < n then
          logD (z.get idx) (l.get (Ten.bidx l.shape (idx.drop (idx.length - l.ndim)))) else 0⟩,
        .torch ⟨c.shape, fun idx => if idx.getD pi 0 < n then
          half * (c.get idx + c.get (idx.set pi (idx.getD pi 0 + n))) else 0⟩])
    else .error .torch
  | _ => .error .type

/-- `ARM.estimator` (arm.py:83-95).  The numbers passed to `comp_estimator` are left out of the arguments of the
wrapper, which passes them on. -/
def armEstimator [CommRing α] [Autograd α] (hook : UnwrapHook α) (logD : α → α → α) (half : α) (name : String)
    (logits : Operand α) (tensor cost : STen α) : Except Err (Option (Operand α) × Option (Operand α)) :=
  match tensor.getPlate name with
  | .error e => .error e
  | .ok plate =>
    match tensor.plateDimIndex plate.name with
    | .error e => .error e
    | .ok index =>
      match handleDet hook false false {} (armFn logD half index (plate.n / 2))
          (opArgs [.st tensor true, .st cost false, logits]) with
      | .error e => .error e
      | .ok (.tup [.st lp _, .st b _]) =>
        match magicBox hook (.st lp false) with
        | .error e => .error e
        | .ok box =>
          match opCall hook oneMinusElts [box, .st b false] with
          | .error e => .error e
          | .ok cv => .ok (some (.st lp false), some cv)
      | .ok _ => .error .type

/-- A tensor sampled with `ARM`, as the surrogate loss finds it: the tensor of `z` and `z_tilde` (the tensor
returned to the user does not require a gradient and is skipped, inference.py:136). -/
def armSampled [CommRing α] [Autograd α] (hook : UnwrapHook α) (logD : α → α → α) (half : α) (name : String)
    (logits : Operand α) (tensor : STen α) : Sampled α :=
  ⟨tensor, false, armEstimator hook logD half name logits⟩

/-! ### Programs -/

section
variable {E : Type _} {θ₀ : E}

/-- `(x > 0.0).float()`: not differentiable, so that the result does not depend on the parameters.  arm.py:66. -/
noncomputable def stepElt (x : AD E θ₀) : AD E θ₀ := AD.const (if 0 < x.val then 1 else 0)

/-- The log-density of a distribution shifted by the parameter, at a sample without its dependency; `ℓ` is the
log-density of the noise.  arm.py:79-80. -/
def shiftLogD (ℓ : ℝ → ℝ) (z l : AD E θ₀) : AD E θ₀ := fun θ => ℓ (z.val - l θ)

/-- `Logistic(0.0, 1.0).log_prob(x)` (arm.py:19-25): the density of `log(u / (1 - u))` for uniform `u`. -/
noncomputable def logisticLog (x : ℝ) : ℝ := -x - 2 * Real.log (1 + Real.exp (-x))

/-- The program
```
x = ARM(name, n_samples=n)(Bernoulli(logits=logits))
add_cost(f(x), "cost")
surrogate_loss()
```
where the entries of the noise are `eps`, by their index in the tensor of shape `(n,) + logits.shape`, and the cost is
an element-wise function of `x` and the parameters.
The calls are arm.py:28-95, inference.py:86-102 and inference.py:105-206. -/
noncomputable def armProgram (hook : UnwrapHook (AD E θ₀)) (inv : Nat → AD E θ₀) (ℓ : ℝ → ℝ) (name : String) (n : Nat)
    (logits : Operand (AD E θ₀)) (eps : List Nat → ℝ) (f : E → ℝ → ℝ) : Except Err (STen (AD E θ₀)) :=
  match armSample inv name n [] true logits (fun k => ⟨k :: logits.shape, fun idx => AD.const (eps idx)⟩) with
  | .error e => .error e
  | .ok (z, _) =>
    match armPost hook stepElt z with
    | .error e => .error e
    | .ok x =>
      match opCall hook (liftFn (fun θ xs => f θ (xs.headD 0))) [.st x true] with
      | .error e => .error e
      | .ok (.torch _) => .error .type
      | .ok (.st c _) =>
        surrogateLoss hook [(c, [armSampled hook (shiftLogD ℓ) (AD.const (1 / 2)) name logits z])]

end

end Storch
