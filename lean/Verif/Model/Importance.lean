import Verif.Model.Sampling

/-!
# Importance sampling (storch/sampling/importance_sampling.py:13-67)
-/

namespace Storch

/-- Division of the elements; torch divides numbers, and the derivative is that of the quotient.
Used at importance_sampling.py:46-52. -/
noncomputable instance {E : Type _} {θ₀ : E} : Div (AD E θ₀) := ⟨fun x y θ => x θ / y θ⟩

@[simp] theorem AD.div_apply {E : Type _} {θ₀ : E} (x y : AD E θ₀) (θ : E) : (x / y) θ = x θ / y θ := rfl

variable {α : Type _} [ValEq α]

/-- importance_sampling.py:21-24, one parameter: plates that are missing are inserted after the first. -/
def insertPlates (plates : List (Plate α)) : List (Plate α) → List (Plate α)
  | [] => plates
  | p :: ps => if p.isIn plates then insertPlates plates ps else insertPlates (plates.insertIdx 1 p) ps

/-- `add_prop_plates` (importance_sampling.py:13-24); `params` are the parameters of the proposal. -/
def addPropPlates (plates : List (Plate α)) : List (Operand α) → List (Plate α)
  | [] => plates
  | .st t _ :: ps => addPropPlates (insertPlates plates t.plates) ps
  | .torch _ :: ps => addPropPlates plates ps

/-- `x / y`, element-wise.  Used at importance_sampling.py:46-52. -/
def divElts [Zero α] [Div α] : List α → α
  | [a, b] => a / b
  | _ => 0

/-- An element-wise function of storch tensors, which gives a storch tensor.
Through tensor.py:243-268, as at importance_sampling.py:46-52. -/
def opSt (hook : UnwrapHook α) (f : List α → α) (ops : List (STen α)) : Except Err (STen α) :=
  match opCall hook f (ops.map (fun t => .st t false)) with
  | .error e => .error e
  | .ok (.st r _) => .ok r
  | .ok (.torch _) => .error .attribute

/-- `ImportanceSampling.mc_weighting_function` (importance_sampling.py:46-52).  `logP` and `logQ` are the methods
`log_prob` of the distribution and of the proposal, `n` is `plate.n`. -/
def importanceWeight [Ring α] [Div α] [Autograd α] (hook : UnwrapHook α) (logP logQ : STen α → Except Err (STen α)) (n : Nat)
    (t : STen α) : Except Err (STen α) :=
  match logP t with
  | .error e => .error e
  | .ok lp =>
    match opSt hook expElts [lp] with
    | .error e => .error e
    | .ok p =>
      match logQ t with
      | .error e => .error e
      | .ok lq =>
        match opSt hook expElts [lq] with
        | .error e => .error e
        | .ok q =>
          match opSt hook (fun xs => n * xs.headD 0) [q] with
          | .error e => .error e
          | .ok nq =>
            match opSt hook divElts [p, nq] with
            | .error e => .error e
            | .ok w => opSt hook detachElts [w]

/-- `Method.sample(distr)` (method.py:93-136) with the sampling method `ImportanceSampling(name, n, proposal)`
(importance_sampling.py:27-67).  `params` and `propParams` are the parameters of the distribution and of the proposal, and
`sample k` is `proposal.sample((k,))`.  Plates of the proposal that are missing are added after the tensor has been built, so
that it keeps its number of plate dimensions.  A simplification: a weight over a plate of the proposal keeps its name, but the
lookup of the plates of a weight (`weightPlates`) only knows the plate itself and its parents. -/
def importance [Ring α] [Div α] [Autograd α] (hook : UnwrapHook α) (inv : Nat → α) (name : String) (n : Nat)
    (ctx : List (Plate α)) (params propParams : List (Operand α)) (sample : Nat → Ten α)
    (logP logQ : STen α → Except Err (STen α)) : Except Err (STen α × Plate α) :=
  match monteCarlo inv name n ctx params sample with
  | .error e => .error e
  | .ok (t, p) =>
    let t' : STen α := ⟨t.ten, addPropPlates t.plates propParams, t.plateDims⟩
    match importanceWeight hook logP logQ p.n t' with
    | .error e => .error e
    | .ok w =>
      let plate := Plate.mk p.name p.n (.storch w.ten (w.plates.map Plate.name)) p.kind p.parents
      .ok (⟨t'.ten, t'.plates.map (fun q => if q.name = name then plate else q), t'.plateDims⟩, plate)

/-! ### A program with one variable -/

section
variable {E : Type _} {θ₀ : E}

/-- `log_prob` of a distribution whose parameters have no plates.  Called at importance_sampling.py:46-52. -/
noncomputable def logOf (hook : UnwrapHook (AD E θ₀)) (mass : E → ℝ → ℝ) (x : STen (AD E θ₀)) :
    Except Err (STen (AD E θ₀)) :=
  opSt hook (fun xs θ => Real.log (mass θ (xs.headD 0 θ))) [x]

/-- The costs `f(x)` with the stochastic tensor above them.  inference.py:86-102, 132-137. -/
noncomputable def importanceCosts (hook : UnwrapHook (AD E θ₀)) (x : STen (AD E θ₀)) (s : Sampled (AD E θ₀)) :
    List (E → ℝ → ℝ) → Except Err (List (STen (AD E θ₀) × List (Sampled (AD E θ₀))))
  | [] => .ok []
  | f :: fs =>
    match opSt hook (liftFn (fun θ xs => f θ (xs.headD 0))) [x] with
    | .error e => .error e
    | .ok c =>
      match importanceCosts hook x s fs with
      | .error e => .error e
      | .ok cs => .ok ((c, [s]) :: cs)

/-- `x = ScoreFunction(name, n, sampling_method=ImportanceSampling(name, n, Q))(P)` and `add_cost(f(x))` for each cost.  The
parameters of `P` and `Q` are torch tensors; `draw` are the sampled values.
The calls are importance_sampling.py:27-67, method.py:93-136, inference.py:86-102. -/
noncomputable def importanceRegister (hook : UnwrapHook (AD E θ₀)) (inv : Nat → AD E θ₀) (name : String) (n : Nat)
    (p : E → ℝ → ℝ) (q : ℝ → ℝ) (costs : List (E → ℝ → ℝ)) (draw : List Nat → ℝ) :
    Except Err (List (STen (AD E θ₀) × List (Sampled (AD E θ₀)))) :=
  match importance hook inv name n [] [] [] (fun k => ⟨[k], fun idx => AD.const (draw (if k = 1 then idx.tail else idx))⟩)
      (logOf hook p) (logOf hook (fun _ => q)) with
  | .error e => .error e
  | .ok (x, _) => importanceCosts hook x (scoreSampled hook inv (logOf hook p) n name none x) costs

/-- The surrogate loss of these costs.  inference.py:105-206. -/
noncomputable def importanceRun (hook : UnwrapHook (AD E θ₀)) (inv : Nat → AD E θ₀) (name : String) (n : Nat)
    (p : E → ℝ → ℝ) (q : ℝ → ℝ) (costs : List (E → ℝ → ℝ)) (draw : List Nat → ℝ) : Except Err (STen (AD E θ₀)) :=
  match importanceRegister hook inv name n p q costs draw with
  | .error e => .error e
  | .ok cs => surrogateLoss hook cs

end

end Storch
