import Verif.Model.Surrogate
import Mathlib.Analysis.SpecialFunctions.Log.Basic

/-!
# Sampling (storch/method/method.py:93-193, storch/sampling/method.py:121-150)

The tensors are values; the links of the graph are in `Verif.Model.World`, the hooks on the gradients in
`Verif.Model.Hooks`.
-/

namespace Storch
variable {α : Type _} [ValEq α]

/-- method.py:100-122: the plates of a sample are those of the surrounding `@stochastic` context
(`_plate_links`) and those of the parameters of the distribution. -/
def methodPlates (plates : List (Plate α)) : List (Operand α) → List (Plate α)
  | [] => plates
  | .st t _ :: ps => methodPlates (addPlates plates t.plates) ps
  | .torch _ :: ps => methodPlates plates ps

/-- The plate `Plate(name, n, plates.copy())` with its default weight `1.0 / n` (tensor.py:25-37); `inv m` is
`1 / m`. -/
def mcPlate (inv : Nat → α) (name : String) (n : Nat) (parents : List (Plate α)) : Plate α :=
  .mk name n (.torch (Ten.scalar (inv n))) .plain parents

/-- `Method.sample(distr)` (method.py:93-136) with the sampling method `MonteCarlo` (sampling/method.py:121-150).
`params` are the parameters of the distribution, `sample k` is `distr.sample((k,))`, made while wrapping is
switched off: a torch tensor with a leading dimension of size `k`.  A plate of the same name raises
(method.py:124-126 with `on_plate_already_present`), so that the loop of sampling/method.py:129-132 finds none.  The plate
is returned too. -/
def monteCarlo (inv : Nat → α) (name : String) (n : Nat) (ctx : List (Plate α)) (params : List (Operand α))
    (sample : Nat → Ten α) : Except Err (STen α × Plate α) :=
  let plates := methodPlates ctx params
  if plates.any (fun p => p.name == name) then .error .value
  else
    let t := sample n
    match t.shape with
    | [] => .error .index
    | k :: _ =>
      if k = 0 then .error .zeroDiv
      else
        let plate := mcPlate inv name k plates
        match STen.mk' (if k = 1 then squeeze0 t else t) (plate :: plates) with
        | .error e => .error e
        | .ok s => .ok (s, plate)

/-! ### Programs that use `ScoreFunction`

A small user program: variables sampled with `ScoreFunction(name, n, baseline)` from a distribution with one
parameter, which is an element-wise function of earlier samples, and costs that are element-wise functions of
samples.  The parameters of the model are in `E`. -/

section
variable {E : Type _} {θ₀ : E}

/-- `name = ScoreFunction(name, n, base)(D(param(args)))`, where `D` has finite support and the probability of
`v` under `D(π)` is `prob π v`.  A moving average comes with the value it has before the surrogate loss is
computed (a simplification: the library updates it for each cost, here the costs all see that value).
The call is method.py:49-56 of method.py:512-575. -/
structure ScoreVar (E : Type _) where
  name : String
  n : Nat
  args : List String
  param : E → List ℝ → ℝ
  support : Finset ℝ
  prob : ℝ → ℝ → ℝ
  base : Option (Baseline ℝ)

/-- The tensors of a run, newest first: the name, the sample and the parameter of its distribution.
No Python counterpart: the variables of a user program that calls method.py:93-193. -/
abbrev RunEnv (E : Type _) (θ₀ : E) := List (String × STen (AD E θ₀) × Operand (AD E θ₀))

/-- The samples with the given names; `NameError` if one is missing.
No Python counterpart: the variables of a user program that calls method.py:93-193. -/
def RunEnv.get (env : RunEnv E θ₀) : List String → Except Err (List (Operand (AD E θ₀)))
  | [] => .ok []
  | s :: ss =>
    match env.find? (fun e => e.1 == s) with
    | none => .error .name
    | some e =>
      match RunEnv.get env ss with
      | .error e => .error e
      | .ok ts => .ok (.st e.2.1 true :: ts)

/-- An element-wise function of tensors and parameters.  Called through tensor.py:243-268. -/
def liftFn (f : E → List ℝ → ℝ) : List (AD E θ₀) → AD E θ₀ := fun xs θ => f θ (xs.map (fun x => x θ))

/-- The shape of the torch tensor underneath.  `tensor.shape`, as at sampling/method.py:136. -/
def Operand.shape : Operand α → List Nat
  | .st t _ => t.ten.shape
  | .torch t => t.shape

/-- Sampling one variable; `draw` are the sampled values, by their index in the tensor without the dimension
of size one.  Samples are not differentiable.  method.py:93-193, sampling/method.py:121-150. -/
noncomputable def ScoreVar.run (hook : UnwrapHook (AD E θ₀)) (inv : Nat → AD E θ₀) (d : ScoreVar E) (draw : List Nat → ℝ)
    (env : RunEnv E θ₀) : Except Err (STen (AD E θ₀) × Operand (AD E θ₀)) :=
  match env.get d.args with
  | .error e => .error e
  | .ok ts =>
    match opCall hook (liftFn d.param) ts with
    | .error e => .error e
    | .ok p =>
      match monteCarlo inv d.name d.n [] [p] (fun k =>
        ⟨k :: p.shape, fun idx => AD.const (draw (if k = 1 then idx.tail else idx))⟩) with
      | .error e => .error e
      | .ok (t, _) => .ok (t, p)

/-- Running the sampling statements; they are listed last to first.
No Python counterpart: a user program that calls method.py:93-193 for one variable after the other. -/
noncomputable def runVars (hook : UnwrapHook (AD E θ₀)) (inv : Nat → AD E θ₀) (ω : String → List Nat → ℝ) :
    List (ScoreVar E) → Except Err (RunEnv E θ₀)
  | [] => .ok []
  | d :: ds =>
    match runVars hook inv ω ds with
    | .error e => .error e
    | .ok env =>
      match d.run hook inv (ω d.name) env with
      | .error e => .error e
      | .ok r => .ok ((d.name, r) :: env)

/-- The log-probability of one element (0 for a wrong number of arguments: `logProbOf` passes two).
For method.py:557. -/
noncomputable def logElt (prob : ℝ → ℝ → ℝ) : List (AD E θ₀) → AD E θ₀
  | [x, π] => fun θ => Real.log (prob (π θ) (x θ))
  | _ => fun _ => 0

/-- `distr.log_prob(x)`, computed element-wise from the sample and the parameter (a simplification: torch does
it in several element-wise steps).  Called at method.py:557. -/
noncomputable def logProbOf (hook : UnwrapHook (AD E θ₀)) (prob : ℝ → ℝ → ℝ) (p : Operand (AD E θ₀))
    (x : STen (AD E θ₀)) : Except Err (STen (AD E θ₀)) :=
  match opCall hook (logElt prob) [.st x true, p] with
  | .error e => .error e
  | .ok (.st r _) => .ok r
  | .ok (.torch _) => .error .attribute

/-- The numbers of a baseline as tensors that do not depend on the parameters.
baseline.py:26-54 computes them from detached costs. -/
def Baseline.lift : Baseline ℝ → Baseline (AD E θ₀)
  | .movingAverage decay average => .movingAverage (AD.const decay) (AD.const average)
  | .batchAverage => .batchAverage

/-- The stochastic tensor of a variable, as the surrogate loss finds it.  inference.py:132-186. -/
noncomputable def ScoreVar.sampled (hook : UnwrapHook (AD E θ₀)) (inv : Nat → AD E θ₀) (d : ScoreVar E)
    (r : STen (AD E θ₀) × Operand (AD E θ₀)) : Sampled (AD E θ₀) :=
  scoreSampled hook inv (logProbOf hook d.prob r.2) d.n d.name (d.base.map Baseline.lift) r.1

/-- `add_cost(f(args), name)`; `walk` are the variables that the walk over the graph finds above the cost.
inference.py:86-102, 132-137. -/
structure ScoreCost (E : Type _) where
  args : List String
  f : E → List ℝ → ℝ
  walk : List (ScoreVar E)

/-- The stochastic tensors found by the walk.  inference.py:132-140. -/
noncomputable def findSampled (hook : UnwrapHook (AD E θ₀)) (inv : Nat → AD E θ₀) (env : RunEnv E θ₀) :
    List (ScoreVar E) → Except Err (List (Sampled (AD E θ₀)))
  | [] => .ok []
  | d :: ds =>
    match env.find? (fun e => e.1 == d.name) with
    | none => .error .name
    | some e =>
      match findSampled hook inv env ds with
      | .error e => .error e
      | .ok ss => .ok (d.sampled hook inv e.2 :: ss)

/-- Registering the cost: the cost tensor and the stochastic tensors above it.  Python accepts a torch tensor
too; here the cost has to depend on a sample.  inference.py:86-102. -/
noncomputable def ScoreCost.run (hook : UnwrapHook (AD E θ₀)) (inv : Nat → AD E θ₀) (env : RunEnv E θ₀)
    (k : ScoreCost E) : Except Err (STen (AD E θ₀) × List (Sampled (AD E θ₀))) :=
  match env.get k.args with
  | .error e => .error e
  | .ok ts =>
    match opCall hook (liftFn k.f) ts with
    | .error e => .error e
    | .ok (.torch _) => .error .type
    | .ok (.st c _) =>
      match findSampled hook inv env k.walk with
      | .error e => .error e
      | .ok ss => .ok (c, ss)

/-- All registered costs.  inference.py:86-102, 116. -/
noncomputable def runCosts (hook : UnwrapHook (AD E θ₀)) (inv : Nat → AD E θ₀) (env : RunEnv E θ₀) :
    List (ScoreCost E) → Except Err (List (STen (AD E θ₀) × List (Sampled (AD E θ₀))))
  | [] => .ok []
  | k :: ks =>
    match k.run hook inv env with
    | .error e => .error e
    | .ok c =>
      match runCosts hook inv env ks with
      | .error e => .error e
      | .ok cs => .ok (c :: cs)

/-- The whole program: sample, register the costs, compute the surrogate loss.
method.py:93-193, inference.py:86-102, 105-206. -/
noncomputable def runProgram (hook : UnwrapHook (AD E θ₀)) (inv : Nat → AD E θ₀) (vars : List (ScoreVar E))
    (costs : List (ScoreCost E)) (ω : String → List Nat → ℝ) : Except Err (STen (AD E θ₀)) :=
  match runVars hook inv ω vars with
  | .error e => .error e
  | .ok env =>
    match runCosts hook inv env costs with
    | .error e => .error e
    | .ok cs => surrogateLoss hook cs

end

end Storch
