import Verif.Model.Sampling
import Verif.Model.Enumerate

/-!
# Programs that use `ScoreFunction`, `Expect` and `Reparameterization`

As in `Verif.Model.Sampling`, but a variable may also be enumerated (method.py:578-580, sampling/expect.py) or
reparameterised (method.py:309-347) instead of being sampled with `ScoreFunction` (method.py:512-575,
sampling/method.py:121-150).
-/

namespace Storch

section
variable {E : Type _} {θ₀ : E}

/-- The methods: `ScoreFunction(name, n, None)` (method.py:512-575), `Expect(name)` (method.py:578-580) and
`Reparameterization(name, n_samples=n)` (method.py:309-347) of a distribution that has `rsample`: with the parameter `π`
and the noise `ε`, `rsample` returns `path π ε`. -/
inductive MixHow where
  | score (n : Nat)
  | expect
  | reparam (n : Nat) (path : ℝ → ℝ → ℝ)

/-- `name = method(D(param(args)))`.  For `ScoreFunction` and `Expect`, `values` is `D.enumerate_support()` and
`prob π v` the probability of `v` under `D(π)`; for `Reparameterization` they are those of the noise (a simplification:
finitely many values of the noise; torch's floating point numbers are finitely many too).
The call is method.py:49-56; the methods are method.py:309-347, 512-575 and 578-580. -/
structure MixVar (E : Type _) where
  name : String
  how : MixHow
  args : List String
  param : E → List ℝ → ℝ
  values : List ℝ
  prob : ℝ → ℝ → ℝ

/-- The size of the plate: the number of samples or of values.  sampling/method.py:137-150, expect.py:62-75. -/
def MixVar.size (d : MixVar E) : Nat :=
  match d.how with
  | .score n => n
  | .expect => d.values.length
  | .reparam n _ => n

/-- The torch tensor underneath.  `tensor._tensor`, as at sampling/method.py:136. -/
def Operand.under {α : Type _} : Operand α → Ten α
  | .st t _ => t.ten
  | .torch t => t

/-- Sampling from the distribution with the parameter `p`: `MonteCarlo` (sampling/method.py:121-150), for
`Reparameterization` with `distr.rsample((n,))` (method.py:335-347) in place of `distr.sample((n,))`, or `Enumerate`
(expect.py:16-76) with the default budget (method.py:579).  `draw` are the sampled values or the noise, by their index in
the tensor; enumeration does not use them. -/
noncomputable def MixVar.sample (hook : UnwrapHook (AD E θ₀)) (inv : Nat → AD E θ₀) (d : MixVar E)
    (draw : List Nat → ℝ) (p : Operand (AD E θ₀)) : Except Err (STen (AD E θ₀) × Plate (AD E θ₀)) :=
  match d.how with
  | .score n => monteCarlo inv d.name n [] [p] (fun k =>
      ⟨k :: p.shape, fun idx => AD.const (draw (if k = 1 then idx.tail else idx))⟩)
  | .reparam n path => monteCarlo inv d.name n [] [p] (fun k =>
      ⟨k :: p.shape, fun idx => fun θ => path (p.under.get idx.tail θ) (draw (if k = 1 then idx.tail else idx))⟩)
  | .expect => enumerate hook inv d.name 10000 [] [p]
      ⟨[d.values.length], fun idx => AD.const (d.values.getD (idx.headD 0) 0)⟩ p.shape (logProbOf hook d.prob p)

/-- One statement of the program.  method.py:93-193. -/
noncomputable def MixVar.run (hook : UnwrapHook (AD E θ₀)) (inv : Nat → AD E θ₀) (d : MixVar E) (draw : List Nat → ℝ)
    (env : RunEnv E θ₀) : Except Err (STen (AD E θ₀) × Operand (AD E θ₀)) :=
  match env.get d.args with
  | .error e => .error e
  | .ok ts =>
    match opCall hook (liftFn d.param) ts with
    | .error e => .error e
    | .ok p =>
      match d.sample hook inv draw p with
      | .error e => .error e
      | .ok (t, _) => .ok (t, p)

/-- Running the statements; they are listed last to first.
No Python counterpart: a user program that calls method.py:93-193 for one variable after the other. -/
noncomputable def runMixed (hook : UnwrapHook (AD E θ₀)) (inv : Nat → AD E θ₀) (ω : String → List Nat → ℝ) :
    List (MixVar E) → Except Err (RunEnv E θ₀)
  | [] => .ok []
  | d :: ds =>
    match runMixed hook inv ω ds with
    | .error e => .error e
    | .ok env =>
      match d.run hook inv (ω d.name) env with
      | .error e => .error e
      | .ok r => .ok ((d.name, r) :: env)

/-- The stochastic tensor of a variable, as the surrogate loss finds it.  inference.py:132-186; the estimators are
method.py:554-575 and, for `Expect`, method.py:201-220; `Reparameterization` is pathwise (method.py:325-333, with
`storch.CHECK_DIFFERENTIABLE_PATH` off as by default). -/
noncomputable def MixVar.sampled (hook : UnwrapHook (AD E θ₀)) (inv : Nat → AD E θ₀) (d : MixVar E)
    (r : STen (AD E θ₀) × Operand (AD E θ₀)) : Sampled (AD E θ₀) :=
  match d.how with
  | .score n => scoreSampled hook inv (logProbOf hook d.prob r.2) n d.name none r.1
  | .expect => expectSampled r.1
  | .reparam _ _ => reparamSampled r.1

/-- `add_cost(f(args), name)`; `walk` are the variables that the walk over the graph finds above the cost.
inference.py:86-102, 132-137. -/
structure MixCost (E : Type _) where
  args : List String
  f : E → List ℝ → ℝ
  walk : List (MixVar E)

/-- The stochastic tensors found by the walk.  inference.py:132-140. -/
noncomputable def findMixed (hook : UnwrapHook (AD E θ₀)) (inv : Nat → AD E θ₀) (env : RunEnv E θ₀) :
    List (MixVar E) → Except Err (List (Sampled (AD E θ₀)))
  | [] => .ok []
  | d :: ds =>
    match env.find? (fun e => e.1 == d.name) with
    | none => .error .name
    | some e =>
      match findMixed hook inv env ds with
      | .error e => .error e
      | .ok ss => .ok (d.sampled hook inv e.2 :: ss)

/-- Registering the cost.  Python accepts a torch tensor too; here the cost has to depend on a sample.
inference.py:86-102. -/
noncomputable def MixCost.run (hook : UnwrapHook (AD E θ₀)) (inv : Nat → AD E θ₀) (env : RunEnv E θ₀)
    (k : MixCost E) : Except Err (STen (AD E θ₀) × List (Sampled (AD E θ₀))) :=
  match env.get k.args with
  | .error e => .error e
  | .ok ts =>
    match opCall hook (liftFn k.f) ts with
    | .error e => .error e
    | .ok (.torch _) => .error .type
    | .ok (.st c _) =>
      match findMixed hook inv env k.walk with
      | .error e => .error e
      | .ok ss => .ok (c, ss)

/-- All registered costs.  inference.py:86-102, 116. -/
noncomputable def runMixCosts (hook : UnwrapHook (AD E θ₀)) (inv : Nat → AD E θ₀) (env : RunEnv E θ₀) :
    List (MixCost E) → Except Err (List (STen (AD E θ₀) × List (Sampled (AD E θ₀))))
  | [] => .ok []
  | k :: ks =>
    match k.run hook inv env with
    | .error e => .error e
    | .ok c =>
      match runMixCosts hook inv env ks with
      | .error e => .error e
      | .ok cs => .ok (c :: cs)

/-- The whole program: sample or enumerate, register the costs, compute the surrogate loss.
method.py:93-193, inference.py:86-102, 105-206. -/
noncomputable def runMixedProgram (hook : UnwrapHook (AD E θ₀)) (inv : Nat → AD E θ₀) (vars : List (MixVar E))
    (costs : List (MixCost E)) (ω : String → List Nat → ℝ) : Except Err (STen (AD E θ₀)) :=
  match runMixed hook inv ω vars with
  | .error e => .error e
  | .ok env =>
    match runMixCosts hook inv env costs with
    | .error e => .error e
    | .ok cs => surrogateLoss hook cs

end

end Storch
