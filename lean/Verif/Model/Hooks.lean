import Verif.Model.Plate

/-!
# The gradients recorded on stochastic tensors (storch/method/method.py:59-91, 141-168, storch/tensor.py:862-873)
and the parameters of the methods (method.py:222-225, 399-403, 473-477)
-/

namespace Storch

section
variable {α : Type _}

/-- A parameter of a distribution as `Method.sample` sees it (method.py:142-164): its name, whether it requires a
gradient, whether it is `distr._param`, and its plates (none for torch tensors). -/
structure DistrParam (α : Type _) where
  name : String
  requiresGrad : Bool
  isParam : Bool
  plates : List (Plate α)

/-- method.py:142-168: the parameters that get a hook.  For the categorical distributions only the parameter the
user gave is hooked. -/
def hookedParams (categorical : Bool) : List (DistrParam α) → List (DistrParam α)
  | [] => []
  | p :: ps =>
    if p.requiresGrad then
      if categorical && !p.isParam then hookedParams categorical ps
      else p :: hookedParams categorical ps
    else hookedParams categorical ps

/-- What hooks and a stochastic tensor share.  method.py:59-91, tensor.py:840-843. -/
structure HookState (α : Type _) where
  /-- the hooks: a name and the plates of the parameter -/
  hooks : List (String × List (Plate α))
  /-- the dict `sample.param_grads` -/
  grads : List (String × STen α)
  /-- the variable `accum_grads` of the closures has not been deleted -/
  bound : Bool
  /-- the handles have not been removed -/
  registered : Bool

/-- The state after `Method.sample` (`param_grads` is an empty dict, tensor.py:840). -/
def HookState.init (categorical : Bool) (params : List (DistrParam α)) : HookState α :=
  ⟨(hookedParams categorical params).map (fun p => (p.name, p.plates)), [], true, true⟩

/-- `d[name] = v` for a dict.  Used at method.py:71-75. -/
def dictSet {β : Type _} (name : String) (v : β) : List (String × β) → List (String × β)
  | [] => [(name, v)]
  | e :: d => if e.1 = name then (name, v) :: d else e :: dictSet name v d

/-- `d.get(name)`.  Used at method.py:70-72. -/
def dictGet {β : Type _} (name : String) : List (String × β) → Option β
  | [] => none
  | e :: d => if e.1 = name then some e.2 else dictGet name d

/-- `hook(grad)` (method.py:63-77).  After `clean_graph` the name `accum_grads` is unbound, and the `NameError` is
caught. -/
def callHook [AddMonoid α] (st : HookState α) (name : String) (plates : List (Plate α)) (grad : Ten α) :
    Except Err (HookState α) :=
  if !st.bound then .ok st
  else
    match dictGet name st.grads with
    | some g =>
      match Ten.elementwise List.sum [g.ten, grad] with
      | .error e => .error e
      | .ok t =>
        match STen.mk' t plates with
        | .error e => .error e
        | .ok s => .ok { st with grads := dictSet name s st.grads }
    | none =>
      match STen.mk' grad plates with
      | .error e => .error e
      | .ok s => .ok { st with grads := dictSet name s st.grads }

/-- A backward pass delivers the gradient of a parameter: torch calls the registered hook.  Nothing happens for a
parameter without one.  The hook of method.py:63-77, registered at method.py:167. -/
def deliver [AddMonoid α] (st : HookState α) (name : String) (grad : Ten α) : Except Err (HookState α) :=
  if !st.registered then .ok st
  else
    match dictGet name st.hooks with
    | none => .ok st
    | some plates => callHook st name plates grad

/-- `StochasticTensor._clean` (tensor.py:862-873) without the links of the graph.  The detached gradients of lines
863-866 are not used. -/
def cleanHooks (st : HookState α) : HookState α := { st with bound := false, registered := false }

/-- What can happen to a stochastic tensor.  inference.py:248 calls the hooks, tensor.py:862-873 cleans. -/
inductive HookEvent (α : Type _)
  | gradient (name : String) (grad : Ten α)
  | clean

/-- Any number of events: inference.py:248 calls the hooks, tensor.py:862-873 cleans. -/
def runHooks [AddMonoid α] : HookState α → List (HookEvent α) → Except Err (HookState α)
  | st, [] => .ok st
  | st, .gradient name g :: es =>
    match deliver st name g with
    | .error e => .error e
    | .ok st' => runHooks st' es
  | st, .clean :: es => runHooks (cleanHooks st) es

end

/-! ### Annealing -/

/-- The parameters of `GumbelSoftmax` and `GumbelEntmax` that change (method.py:41, 374-376, 426-428). -/
structure Annealing (α : Type _) where
  iterations : Nat
  temperature : α
  annealingRate : α
  minTemperature : α

/-- `_update_parameters` (method.py:222-225) with `update_parameters` of `GumbelSoftmax` and `GumbelEntmax`
(method.py:399-403, 473-477). -/
def Annealing.update {α : Type _} [Ring α] [LT α] [DecidableRel (α := α) (· < ·)] (s : Annealing α) : Annealing α :=
  { s with
    iterations := s.iterations + 1
    temperature := if s.temperature > s.minTemperature then (1 - s.annealingRate) * s.temperature
      else s.temperature }

/-- Any number of updates.  One for each stochastic node (inference.py:250-253). -/
def Annealing.updates {α : Type _} [Ring α] [LT α] [DecidableRel (α := α) (· < ·)] : Nat → Annealing α → Annealing α
  | 0, s => s
  | k + 1, s => (Annealing.updates k s).update

end Storch
