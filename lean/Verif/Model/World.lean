import Verif.Model.Wrap
import Verif.Model.Graph

/-!
# The library as a state machine

The objects a program creates (tensors with their graph links), the module-level variables of
`storch.wrappers` and `storch.inference`, and the API calls as commands.  Every command returns the new
state and either a value or the exception raised; the state after an exception is the state in which it
left things.

Tensors are identified by the number of their creation.  Python lists that several tensors can share
(`plates`, `_children`) live at addresses: the plate list made for tensor `i` is at address `i`, the
child list made by the constructor of tensor `i` at address `2 * i`, and the list that `_clean` puts in
its place at address `2 * i + 1`.  `_parents` is never changed in place, so it is stored by value.
-/

namespace Storch
variable {α : Type _}

/-- The class of a tensor: `Tensor`, `CostTensor`, `IndependentTensor`, `StochasticTensor`.
tensor.py:143, 768, 777, 811. -/
inductive NKind
  | plain | cost | indep | stoch
  deriving DecidableEq, Repr

/-- A tensor object (tensor.py:224-241, 835-843).  `origin` is noted down by an observer, the library does
not have it: the tensor itself, or, for a copy made by `surrogate_loss`, the tensor whose child list the
copy shares. -/
structure WNode (α : Type _) where
  kind : NKind
  name : Option String
  ten : Ten α
  platesAt : Nat
  plateDims : Nat
  parents : List (Nat × Bool)
  kidsAt : Nat
  cleaned : Bool
  requiresGrad : Bool
  method : Option Nat
  origin : Nat

/-- What an observer notes down: an `add_cost` call that returned, and whether gradients were enabled;
a completed `reset`.  The library does not read it.
No Python counterpart: it watches inference.py:86-102 and 263-272. -/
inductive Event
  | addedCost (id : Nat) (gradEnabled : Bool)
  | didReset
  deriving DecidableEq

/-- All tensors created so far and the module-level variables.
inference.py:8-9, wrappers.py:17-22, and the objects of tensor.py:224-241. -/
structure World (α : Type _) where
  size : Nat
  node : Nat → WNode α
  plateList : Nat → List (Plate α)
  kidList : Nat → List (Nat × Bool)
  /-- `storch.wrappers._context_deterministic` -/
  ctxDet : Nat
  /-- `storch.wrappers._context_stochastic` -/
  ctxStoch : Bool
  /-- `storch.wrappers._stochastic_parents` -/
  stochParents : List Nat
  /-- `storch.wrappers._plate_links` -/
  plateLinks : List (Plate α)
  /-- `storch.wrappers._ignore_wrap` -/
  ignoreWrap : Bool
  /-- `torch.is_grad_enabled()` -/
  gradEnabled : Bool
  /-- `storch.inference._cost_tensors` -/
  costs : List Nat
  /-- `storch.inference._sampling_methods` -/
  methods : List Nat
  /-- how often each method was reset -/
  resets : Nat → Nat
  log : List Event

/-- The state after `import storch`.  Entries of `node` from `size` on are not objects.
inference.py:8-9, wrappers.py:17-22. -/
def World.init [Inhabited α] : World α where
  size := 0
  node := fun _ => ⟨.plain, none, ⟨[], fun _ => default⟩, 0, 0, [], 0, false, false, none, 0⟩
  plateList := fun _ => []
  kidList := fun _ => []
  ctxDet := 0
  ctxStoch := false
  stochParents := []
  plateLinks := []
  ignoreWrap := false
  gradEnabled := true
  costs := []
  methods := []
  resets := fun _ => 0
  log := []

namespace World

/-- `tensor.plates` (tensor.py:241) -/
def plates (w : World α) (i : Nat) : List (Plate α) := w.plateList (w.node i).platesAt
/-- `tensor._parents` (tensor.py:226) -/
def parents (w : World α) : Links := fun i => (w.node i).parents
/-- `tensor._children` (tensor.py:237) -/
def kids (w : World α) : Links := fun i => w.kidList (w.node i).kidsAt
/-- The tensor as a value.  tensor.py:225, 241. -/
def sten (w : World α) (i : Nat) : STen α := ⟨(w.node i).ten, w.plates i, (w.node i).plateDims⟩
/-- The truth value of `tensor.stochastic`: a property returning True for `StochasticTensor`
(tensor.py:845-847), a method, hence always true, for `IndependentTensor` (tensor.py:807-808). -/
def isStoch (w : World α) (i : Nat) : Bool :=
  match (w.node i).kind with
  | .stoch => true
  | .indep => true
  | _ => false

/-! ### Tensor construction -/

/-- The list of plates handed to a constructor: a new list, or the list of another tensor.
Constructors keep the list itself (tensor.py:241); for example inference.py:41 passes the one of another tensor. -/
inductive PlateSrc (α : Type _)
  | fresh (ps : List (Plate α))
  | shared (addr : Nat)

/-- The address of the list once tensor `id` holds it.  tensor.py:241. -/
def PlateSrc.addr (id : Nat) : PlateSrc α → Nat
  | .fresh _ => id
  | .shared a => a

/-- A new list comes to exist.  tensor.py:241. -/
def PlateSrc.store (id : Nat) (pl : Nat → List (Plate α)) : PlateSrc α → Nat → List (Plate α)
  | .fresh ps => fun a => if a = id then ps else pl a
  | .shared _ => pl

/-- The plates in the list.  tensor.py:185. -/
def srcPlates (w : World α) : PlateSrc α → List (Plate α)
  | .fresh ps => ps
  | .shared a => w.plateList a

/-- `p._children.append((self, False))` for every parent (tensor.py:230-236). -/
def addKids (w : World α) (id : Nat) : List Nat → (Nat → List (Nat × Bool)) → Nat → List (Nat × Bool)
  | [], kl => kl
  | p :: ps, kl =>
    addKids w id ps (fun a => if a = (w.node p).kidsAt then kl a ++ [(id, false)] else kl a)

/-- `Tensor.__init__` (tensor.py:171-241), also for the subclasses; `requires_grad` and `method` are
those of `StochasticTensor`.  Nothing is changed when the check of the plates raises. -/
def newNode (w : World α) (kind : NKind) (name : Option String) (t : Ten α) (parents : List Nat)
    (src : PlateSrc α) (requiresGrad : Bool) (method : Option Nat) : World α × Except Err Nat :=
  match STen.checkPlates t.shape (w.srcPlates src) [] 0 with
  | .error e => (w, .error e)
  | .ok d =>
    let id := w.size
    ({ w with
        size := id + 1
        node := fun i => if i = id then
          { kind, name, ten := t, platesAt := src.addr id
            plateDims := d, parents := parents.map (fun p => (p, false)), kidsAt := 2 * id
            cleaned := false, requiresGrad, method, origin := id } else w.node i
        plateList := src.store id w.plateList
        kidList := fun a => if a = 2 * id then [] else addKids w id parents w.kidList a },
      .ok id)

/-! ### Deterministic calls -/

/-- What a wrapped function returns: a torch tensor, an existing storch tensor, or None.  Nesting in
lists and tuples is modelled in `Verif.Model.Wrap`.  wrappers.py:275-338. -/
inductive Out (α : Type _)
  | none
  | torch (t : Ten α)
  | st (id : Nat)

/-- What the world depends on: `1 / n` as torch computes it, and the plate hook of
`Verif.Model.Wrap`.  tensor.py:34, 133-134. -/
structure Env (α : Type _) where
  inv : Nat → α
  hook : UnwrapHook α

section
variable [ValEq α]

/-- `_prepare_args` for storch tensors given one by one (wrappers.py:177-272): the plates of the call.
The parents are the arguments themselves. -/
def prepPlates (env : Env α) (w : World α) (args : List Nat) : Except Err (List (Plate α)) :=
  match prepareArgs env.hook {} ⟨args.map (fun i => .st (w.sten i) false), []⟩ with
  | .error e => .error e
  | .ok p => .ok p.plates

/-- `_prepare_outputs_det` (wrappers.py:275-338) for a flat list of outputs.  All torch outputs get the
same list of plates; `shared` is its address once a tensor holds it.  `o` itself is not made a parent
(line 309). -/
def wrapOuts (args : List Nat) (plates : List (Plate α)) (name : String) :
    List (Out α) → Option Nat → Nat → World α → World α × Except Err Unit
  | [], _, _, w => (w, .ok ())
  | .none :: os, sh, k, w => wrapOuts args plates name os sh k w
  | .st o :: os, sh, k, w =>
    if o < w.size then
      if w.isStoch o then (w, .error .runtime)
      else
        match mergePlates plates.reverse (w.plates o) with
        | .error e => (w, .error e)
        | .ok ps =>
          match newNode w .plain (some (name ++ Nat.repr k)) (w.node o).ten args (.fresh ps)
              (w.node o).requiresGrad none with
          | (w', .error e) => (w', .error e)
          | (w', .ok _) => wrapOuts args plates name os sh (k + 1) w'
    else (w, .error .name)
  | .torch t :: os, sh, k, w =>
    match newNode w .plain (some (name ++ Nat.repr k)) t args
        (match sh with | some a => .shared a | .none => .fresh plates) false none with
    | (w', .error e) => (w', .error e)
    | (w', .ok id) => wrapOuts args plates name os (some (sh.getD id)) (k + 1) w'

/-- `_handle_deterministic` (wrappers.py:341-390) around the state transformer `body` of the wrapped
function; `outs` is what the function returns. -/
def detCall (env : Env α) (args : List Nat) (reduced : List String) (name : String)
    (body : World α → World α × Except Err Unit) (outs : List (Out α)) (w : World α) :
    World α × Except Err Unit :=
  if args.any (fun i => decide (w.size ≤ i)) then (w, .error .name)
  else if w.ctxStoch then (w, .error .notImplemented)
  else
    match prepPlates env w args with
    | .error e => (w, .error e)
    | .ok plates =>
      if args = [] then body w
      else
        let w1 := { w with ctxDet := w.ctxDet + 1 }
        let r := body w1
        let w2 := { r.1 with ctxDet := r.1.ctxDet - 1 }
        match r.2 with
        | .error e => (w2, .error e)
        | .ok () =>
          if w2.ignoreWrap then (w2, .ok ())
          else
            wrapOuts args (plates.filter (fun q => !decide (q.name ∈ reduced))) name outs none 1 w2

/-! ### Stochastic functions -/

/-- `_process_stochastic` (wrappers.py:473-490) for a flat list of outputs: `_add_parents` does not
exist (AttributeError), None is not a tensor (TypeError). -/
def stochOuts (parents : List Nat) (plates : List (Plate α)) :
    List (Out α) → Option Nat → World α → World α × Except Err Unit
  | [], _, w => (w, .ok ())
  | .none :: _, _, w => (w, .error .type)
  | .st o :: os, sh, w =>
    if o < w.size then
      if w.isStoch o then stochOuts parents plates os sh w else (w, .error .attribute)
    else (w, .error .name)
  | .torch t :: os, sh, w =>
    match newNode w .plain none t parents (match sh with | some a => .shared a | .none => .fresh plates)
        false none with
    | (w', .error e) => (w', .error e)
    | (w', .ok id) => stochOuts parents plates os (some (sh.getD id)) w'

/-- The wrapper made by `stochastic` (wrappers.py:502-537).  `callOk` says whether the call has the form
that `_prepare_args(*args, **kwargs)` (line 513) can take, namely a list of arguments and a dict;
otherwise it raises TypeError. -/
def stochCall (env : Env α) (callOk : Bool) (args : List Nat)
    (body : World α → World α × Except Err Unit) (outs : List (Out α)) (w : World α) :
    World α × Except Err Unit :=
  if args.any (fun i => decide (w.size ≤ i)) then (w, .error .name)
  else if w.ctxStoch || decide (0 < w.ctxDet) then (w, .error .runtime)
  else if !callOk then (w, .error .type)
  else
    match prepPlates env w args with
    | .error e => (w, .error e)
    | .ok plates =>
      let w1 := { w with plateLinks := plates, stochParents := args, ctxStoch := true }
      let r := body w1
      let w2 := { r.1 with plateLinks := [], stochParents := [], ctxStoch := false }
      match r.2 with
      | .error e => (w2, .error e)
      | .ok () => stochOuts args plates outs none w2

/-! ### Sampling -/

/-- A call of `Method.sample(distr)`: the storch parameters of the distribution, whether some parameter
requires a gradient, the plate name and the object of the method, the tensor drawn by `mc_sample`, and
the tensor returned by `post_sample`, if any.  method.py:93-193. -/
structure SampleCall (α : Type _) where
  params : List Nat
  requiresGrad : Bool
  plateName : String
  method : Nat
  drawn : Ten α
  edited : Option (Ten α)

/-- `if not parent_found: parents.append(p)` (method.py:111-118), by identity. -/
def addParents : List Nat → List Nat → List Nat
  | acc, [] => acc
  | acc, p :: ps => addParents (if p ∈ acc then acc else acc ++ [p]) ps

/-- The plates of all parameters (method.py:119-122). -/
def paramPlates (w : World α) (acc : List (Plate α)) : List Nat → List (Plate α)
  | [] => acc
  | p :: ps => paramPlates w (addPlates acc (w.plates p)) ps

/-- `Method.sample` (method.py:93-193) with `MonteCarlo.sample` (sampling/method.py:121-150); `body` is
what `mc_sample` does.  Weighting functions and gradient hooks are not part of the world. -/
def sampleCall (env : Env α) (s : SampleCall α) (body : World α → World α × Except Err Unit) (w : World α) :
    World α × Except Err Unit :=
  if s.params.any (fun i => decide (w.size ≤ i)) then (w, .error .name)
  else
    let parents := addParents w.stochParents s.params
    let plates := paramPlates w w.plateLinks s.params
    if plates.any (fun p => p.name == s.plateName) then (w, .error .value)
    else
      -- `with storch.ignore_wrapping(): tensor = self.mc_sample(...)`
      let r := body { w with ignoreWrap := true }
      match r.2 with
      | .error e => (r.1, .error e)
      | .ok () =>
        let w1 := { r.1 with ignoreWrap := false }
        match s.drawn.shape with
        | [] => (w1, .error .index)
        | n :: _ =>
          if n = 0 then (w1, .error .zeroDiv)
          else
            let t := if n = 1 then ⟨s.drawn.shape.drop 1, fun idx => s.drawn.get (0 :: idx)⟩ else s.drawn
            let plate := Plate.mk s.plateName n (.torch (Ten.scalar (env.inv n))) .plain plates
            match newNode w1 .stoch (some s.plateName) t parents (.fresh (plate :: plates))
                s.requiresGrad (some s.method) with
            | (w2, .error e) => (w2, .error e)
            | (w2, .ok id) =>
              let w3 := { w2 with methods := if s.method ∈ w2.methods then w2.methods else w2.methods ++ [s.method] }
              match s.edited with
              | .none => (w3, .ok ())
              | some t' =>
                match newNode w3 .stoch (some s.plateName) t' [id] (.shared (w3.node id).platesAt) false none with
                | (w4, .error e) => (w4, .error e)
                | (w4, .ok _) => (w4, .ok ())

end

/-! ### Independent tensors -/

/-- The weight of a new plate (tensor.py:32-34): the one given, or `1 / n`. -/
def indepWeight (env : Env α) (n : Nat) : Option (Weight α) → Except Err (Weight α)
  | some wt => .ok wt
  | .none => if n = 0 then .error .zeroDiv else .ok (.torch (Ten.scalar (env.inv n)))

/-- `IndependentTensor.__init__` (tensor.py:783-803): the plate is inserted into the list that was
passed before the constructor of `Tensor` checks anything. -/
def newIndep (env : Env α) (w : World α) (t : Ten α) (parents : List Nat) (src : PlateSrc α)
    (tensorName plateName : String) (weight : Option (Weight α)) : World α × Except Err Unit :=
  match t.shape with
  | [] => (w, .error .index)
  | n :: _ =>
    let plates := w.srcPlates src
    if plates.any (fun p => p.name == plateName) then (w, .error .value)
    else
      match indepWeight env n weight with
      | .error e => (w, .error e)
      | .ok wt =>
        let new := Plate.mk plateName n wt .plain plates :: plates
        let (w1, src1) := (match src with
          | .fresh _ => (w, PlateSrc.fresh new)
          | .shared a => ({ w with plateList := fun b => if b = a then new else w.plateList b }, .shared a))
        match newNode w1 .indep (some tensorName) t parents src1 false none with
        | (w2, .error e) => (w2, .error e)
        | (w2, .ok _) => (w2, .ok ())

/-- `tensor.name + "_indep_" + plate_name if tensor.name else plate_name` (inference.py:37-39). -/
def indepName (name : Option String) (plateName : String) : String :=
  match name with
  | .none => plateName
  | some s => if s = "" then plateName else s ++ "_indep_" ++ plateName

/-- `torch.Tensor.transpose(dim, 0)` unless `dim` is 0 (inference.py:35-36). -/
def moveFront (t : Ten α) (dim : Nat) : Except Err (Ten α) :=
  if dim = 0 then .ok t else t.transpose dim 0

/-- `denote_independent` on a storch tensor (inference.py:26-42): the list of plates is shared with the
argument.  Negative dimensions are not modelled. -/
def denote (env : Env α) (w : World α) (x dim : Nat) (plateName : String) (weight : Option (Weight α)) :
    World α × Except Err Unit :=
  if w.size ≤ x then (w, .error .name)
  else if w.ctxStoch || decide (0 < w.ctxDet) then (w, .error .runtime)
  else
    match moveFront (w.node x).ten dim with
    | .error e => (w, .error e)
    | .ok t =>
      newIndep env w t [x] (.shared (w.node x).platesAt) (indepName (w.node x).name plateName) plateName weight

/-- `denote_independent` on a torch tensor (inference.py:43-46). -/
def denoteTorch (env : Env α) (w : World α) (x : Ten α) (dim : Nat) (plateName : String)
    (weight : Option (Weight α)) : World α × Except Err Unit :=
  if w.ctxStoch || decide (0 < w.ctxDet) then (w, .error .runtime)
  else
    match moveFront x dim with
    | .error e => (w, .error e)
    | .ok t => newIndep env w t [] (.fresh []) plateName plateName weight

/-- `sample.unsqueeze(0)` for all samples, then `torch.cat(..., 0)` (inference.py:61-67): all samples
must have the same shape; the empty list raises. -/
def stackSamples (ts : List (Ten α)) : Except Err (Ten α) :=
  match ts with
  | [] => .error .torch
  | t :: ts' =>
    if ts'.all (fun u => u.shape == t.shape) then
      .ok ⟨(t :: ts').length :: t.shape, fun idx =>
        match idx with
        | [] => t.get []
        | i :: rest => ((t :: ts').getD i t).get rest⟩
    else .error .torch

/-- `gather_samples` on a list of storch tensors (inference.py:54-80): the plates are copied from the
first sample. -/
def gather (env : Env α) (w : World α) (xs : List Nat) (plateName : String) (weight : Option (Weight α)) :
    World α × Except Err Unit :=
  if xs.any (fun i => decide (w.size ≤ i)) then (w, .error .name)
  else if w.ctxStoch || decide (0 < w.ctxDet) then (w, .error .runtime)
  else
    match stackSamples (xs.map (fun i => (w.node i).ten)) with
    | .error e => (w, .error e)
    | .ok t =>
      match xs with
      | [] => (w, .error .index)
      | x :: _ =>
        newIndep env w t xs (.fresh (w.plates x)) (indepName (w.node x).name plateName) plateName weight

/-- `gather_samples` on a list of torch tensors (inference.py:54-67, 81-83). -/
def gatherTorch (env : Env α) (w : World α) (xs : List (Ten α)) (plateName : String)
    (weight : Option (Weight α)) : World α × Except Err Unit :=
  if w.ctxStoch || decide (0 < w.ctxDet) then (w, .error .runtime)
  else
    match stackSamples xs with
    | .error e => (w, .error e)
    | .ok t => newIndep env w t [] (.fresh []) ("_indep_" ++ plateName) plateName weight

/-! ### Costs -/

/-- The end of `add_cost` (inference.py:99-102). -/
def registerCost (w : World α) (t : Ten α) (parents : List Nat) (src : PlateSrc α) (name : Option String) :
    World α × Except Err Nat :=
  match newNode w .cost name t parents src false none with
  | (w1, .error e) => (w1, .error e)
  | (w1, .ok id) =>
    (if w1.gradEnabled then { w1 with costs := w1.costs ++ [id] } else w1, .ok id)

/-- `add_cost` on a torch tensor (inference.py:87-88): neither the shape nor the name is checked. -/
def addCostTorch (w : World α) (t : Ten α) (name : Option String) : World α × Except Err Nat :=
  registerCost w t [] (.fresh []) name

/-- `cost.squeeze(-1)` for a tensor whose last dimension has size one.  inference.py:91-92. -/
def squeezeLast (t : Ten α) : Ten α := ⟨t.shape.dropLast, fun idx => t.get (idx ++ [0])⟩

/-- `add_cost` on a storch tensor (inference.py:90-102).  `squeeze` is a deterministic call; inside
`ignore_wrapping` it returns a torch tensor, which has no `_tensor` (AttributeError). -/
def addCost [ValEq α] (env : Env α) (w : World α) (x : Nat) (name : Option String) :
    World α × Except Err Nat :=
  if w.size ≤ x then (w, .error .name)
  else
    let es := (w.sten x).eventShape
    if es ≠ [] ∧ es ≠ [1] then (w, .error .value)
    else
      let r : World α × Except Err Nat :=
        if es = [] then (w, .ok x)
        else
          match detCall env [x] [] "squeeze" (fun w => (w, .ok ())) [.torch (squeezeLast (w.node x).ten)] w with
          | (w1, .error e) => (w1, .error e)
          | (w1, .ok ()) => if w1.ignoreWrap then (w1, .error .attribute) else (w1, .ok w.size)
      match r with
      | (w1, .error e) => (w1, .error e)
      | (w1, .ok c) =>
        if name = .none ∨ name = some "" then (w1, .error .value)
        else registerCost w1 (w1.node c).ten [c] (.shared (w1.node c).platesAt) name

/-! ### Cleaning and backward -/

/-- The end of `_clean` on one tensor: `self._children = []`, `self._parents = []`
(tensor.py:443-444). -/
def cut (w : World α) (x : Nat) : World α :=
  { w with
    node := fun i => if i = x then { w.node x with parents := [], kidsAt := 2 * x + 1 } else w.node i
    kidList := fun a => if a = 2 * x + 1 then [] else w.kidList a }

/-- `self._cleaned = True` (tensor.py:438). -/
def mark (w : World α) (x : Nat) : World α :=
  { w with node := fun i => if i = x then { w.node x with cleaned := true } else w.node i }

/-- `for (node, _) in ...: node._clean()`.  tensor.py:439-442. -/
def cleanEach (f : World α → Nat → Except Err (World α)) :
    List (Nat × Bool) → World α → Except Err (World α)
  | [], w => .ok w
  | e :: es, w =>
    match f w e.1 with
    | .error e' => .error e'
    | .ok w' => cleanEach f es w'

/-- `_clean` (tensor.py:432-444).  Fuel bounds the depth of the recursion; Python's own limit on it is
not modelled.  The part of `StochasticTensor._clean` that concerns gradients is not part of the world. -/
def clean : Nat → World α → Nat → Except Err (World α)
  | 0, _, _ => .error .diverge
  | fuel + 1, w, x =>
    if (w.node x).cleaned then .ok w
    else
      match cleanEach (clean fuel) (w.kids x) (w.mark x) with
      | .error e => .error e
      | .ok w1 =>
        match cleanEach (clean fuel) (w1.parents x) w1 with
        | .error e => .error e
        | .ok w2 => .ok (w2.cut x)

/-- `x._clean()` with enough fuel.  tensor.py:432-444. -/
def cleanNode (w : World α) (x : Nat) : Except Err (World α) := clean (w.size + 1) w x

/-- `for c in _cost_tensors: c._clean()` (inference.py:266-267). -/
def cleanAll : List Nat → World α → Except Err (World α)
  | [], w => .ok w
  | c :: cs, w =>
    match cleanNode w c with
    | .error e => .error e
    | .ok w' => cleanAll cs w'

/-- `reset()` (inference.py:263-272). -/
def reset (w : World α) : World α × Except Err Unit :=
  match cleanAll w.costs w with
  | .error e => (w, .error e)
  | .ok w1 =>
    ({ w1 with costs := [], methods := []
               resets := fun m => if m ∈ w1.methods then w1.resets m + 1 else w1.resets m
               log := w1.log ++ [.didReset] }, .ok ())

/-- `new_parent._parents = parent._parents` and the appends to the child lists of these parents
(inference.py:178-180). -/
def addLinkedKids (w : World α) (id : Nat) :
    List (Nat × Bool) → (Nat → List (Nat × Bool)) → Nat → List (Nat × Bool)
  | [], kl => kl
  | p :: ps, kl =>
    addLinkedKids w id ps (fun a => if a = (w.node p.1).kidsAt then kl a ++ [(id, p.2)] else kl a)

/-- The copy of a stochastic tensor that `surrogate_loss` hands to the estimator (inference.py:166-181);
`t` and `ps` are the transposed tensor and the permuted plates.  The child list of the original is
shared. -/
def mimic (w : World α) (x : Nat) (t : Ten α) (ps : List (Plate α)) : World α × Except Err Unit :=
  if w.size ≤ x then (w, .error .name)
  else if (w.node x).kind ≠ .stoch then (w, .error .attribute)
  else
    match newNode w .stoch (w.node x).name t [] (.fresh ps) (w.node x).requiresGrad (w.node x).method with
    | (w1, .error e) => (w1, .error e)
    | (w1, .ok id) =>
      ({ w1 with
          node := fun i => if i = id then
            { w1.node id with
              parents := (w.node x).parents, kidsAt := (w.node x).kidsAt, origin := (w.node x).kidsAt / 2 }
            else w1.node i
          kidList := addLinkedKids w id (w.node x).parents w1.kidList }, .ok ())

/-- `surrogate_loss` (inference.py:105-206) around the state transformer `script` of everything its
loops do: reductions, copies of the stochastic parents, estimators. -/
def surrogateLoss (script : World α → World α × Except Err Unit) (w : World α) : World α × Except Err Unit :=
  if w.costs = [] then (w, .error .runtime) else script w

/-- `backward` (inference.py:213-260).  `sl` is the tensor returned by `surrogate_loss`, `late` an
exception raised by the backward pass of torch or by `_update_parameters`. -/
def backward (createGraph : Bool) (script : World α → World α × Except Err Unit) (sl : Nat)
    (late : Option Err) (w : World α) : World α × Except Err Unit :=
  match surrogateLoss script w with
  | (w1, .error e) => (w1, .error e)
  | (w1, .ok ()) =>
    match late with
    | some e => (w1, .error e)
    | .none =>
      if createGraph then (w1, .ok ())
      else if w1.size ≤ sl then (w1, .error .name)
      else
        match cleanNode w1 sl with
        | .error e => (w1, .error e)
        | .ok w2 => reset w2

/-! ### Gradients with respect to chosen tensors -/

/-- A storch tensor or a torch tensor in one of the lists given to `storch.grad` (storch.py:219-227). -/
inductive GArg (α : Type _)
  | st (id : Nat)
  | torch (t : Ten α)

/-- The storch tensors among them.  storch.py:246. -/
def GArg.ids : GArg α → List Nat
  | .st i => [i]
  | .torch _ => []

/-- The list entry as the value that `_prepare_args` gets (storch.py:231-233). -/
def GArg.val (w : World α) : GArg α → Val α
  | .st i => .st (w.sten i) (w.isStoch i)
  | .torch t => .torch t

/-- The loop of `Tensor.__init__` over the plates (tensor.py:185-222) where the tensor is None: the first plate of
another size than one asks for `tensor.shape`. -/
def noneCheck : List (Plate α) → List String → Except Err Unit
  | [], _ => .ok ()
  | p :: ps, names =>
    if p.name ∈ names then .error .value
    else if p.n = 1 then noneCheck ps (p.name :: names)
    else .error .attribute

/-- The storch tensor made for one gradient (storch.py:246-254).  `None + "_grad"` raises TypeError.  Where the gradient
is None and the loop over the plates passes, the links are made and then `tensor.shape` raises (tensor.py:230-239): a
tensor that nobody can use stays behind as a child of its parents.  Simplified: it has no torch tensor, here it has that
of the input. -/
def gradTensor (w : World α) (outputs : List Nat) (x : GArg α) (g : Option (Ten α)) : World α × Except Err Nat :=
  match x with
  | .st i =>
    match (w.node i).name with
    | none => (w, .error .type)
    | some n =>
      match g with
      | some t =>
        newNode w .plain (some (n ++ "_grad")) t (outputs ++ [i]) (.shared (w.node i).platesAt) false none
      | none =>
        match noneCheck (w.plates i) [] with
        | .error e => (w, .error e)
        | .ok () =>
          ((newNode w .plain (some (n ++ "_grad")) (w.node i).ten (outputs ++ [i]) (.fresh []) false none).1,
            .error .attribute)
  | .torch x =>
    match g with
    | some t => newNode w .plain (some "grad") t outputs (.fresh []) false none
    | none => ((newNode w .plain (some "grad") x outputs (.fresh []) false none).1, .error .attribute)

/-- The loop over the gradients (storch.py:244-255): the numbers of the tensors made. -/
def gradLoop (outputs : List Nat) : List (GArg α) → List (Option (Ten α)) → World α → World α × Except Err (List Nat)
  | _, [], w => (w, .ok [])
  | [], _ :: _, w => (w, .error .index)
  | x :: xs, g :: gs, w =>
    match gradTensor w outputs x g with
    | (w1, .error e) => (w1, .error e)
    | (w1, .ok id) =>
      match gradLoop outputs xs gs w1 with
      | (w2, .error e) => (w2, .error e)
      | (w2, .ok ids) => (w2, .ok (id :: ids))

/-- What `torch.autograd.grad` computes from the outputs, the inputs and `grad_outputs`: an exception, or a gradient or
None for every input (storch.py:235-243).  The flags of the call are part of it. -/
abbrev Autograd' (α : Type _) :=
  List (Ten α) → List (Ten α) → Option (List (Ten α)) → Except Err (List (Option (Ten α)))

/-- The torch tensors in the list that `_prepare_args` has unwrapped (storch.py:234). -/
def listTens : Val α → Option (List (Ten α))
  | .lst xs => xs.mapM Val.asTorch
  | _ => none

/-- `storch.grad` (storch.py:219-255).  Simplified: `outputs` is a list of storch tensors and `inputs` a list; a single
tensor for `outputs` raises at `outputs + [input]`, and a torch tensor among them has no `_children`. -/
def gradCall [ValEq α] (env : Env α) (ag : Autograd' α) (outputs : List Nat) (inputs : List (GArg α))
    (gradOutputs : Option (List (GArg α))) (w : World α) : World α × Except Err (List Nat) :=
  if (outputs ++ inputs.flatMap GArg.ids ++ (gradOutputs.getD []).flatMap GArg.ids).any
      (fun i => decide (w.size ≤ i)) then (w, .error .name)
  else
    match prepareArgs env.hook { alignTensors := false }
      ⟨[.lst (outputs.map fun i => .st (w.sten i) (w.isStoch i)), .lst (inputs.map (GArg.val w)),
        match gradOutputs with
        | none => .none
        | some l => .lst (l.map (GArg.val w))], []⟩ with
    | .error e => (w, .error e)
    | .ok p =>
      match p.args.pos with
      | [o, i, g] =>
        match listTens o, listTens i with
        | some os, some is =>
          match ag os is (listTens g) with
          | .error e => (w, .error e)
          | .ok gs => gradLoop outputs inputs gs w
        | _, _ => (w, .error .type)
      | _ => (w, .error .type)

end World

/-! ### Programs -/

open World in
/-- Programs over the API.  Tensors are named by the number of their creation; a number that does not
exist yet raises NameError.  `mimic` occurs only in the scripts of `surrogate` and `backward`.
The functions are inference.py:26-102, 105-272, method.py:93-193, storch.py:219-255 and wrappers.py:341-574. -/
inductive Cmd (α : Type _)
  | skip
  | fail (e : Err)
  /-- evaluating variables -/
  | use (ids : List Nat)
  | seq (a b : Cmd α)
  /-- `try: a` / `except: b` -/
  | attempt (a b : Cmd α)
  /-- `storch.Tensor(t, parents, plates, name)` -/
  | tensor (name : Option String) (t : Ten α) (parents : List Nat) (plates : List (Plate α))
  | det (args : List Nat) (reduced : List String) (name : String) (body : Cmd α) (outs : List (Out α))
  | stoch (callOk : Bool) (args : List Nat) (body : Cmd α) (outs : List (Out α))
  /-- `with storch.ignore_wrapping(): body` -/
  | ignoring (body : Cmd α)
  /-- `with torch.set_grad_enabled(on): body`; torch restores the mode whatever happens. -/
  | gradMode (on : Bool) (body : Cmd α)
  | sample (s : SampleCall α) (body : Cmd α)
  | denote (x dim : Nat) (plateName : String) (weight : Option (Weight α))
  | denoteTorch (t : Ten α) (dim : Nat) (plateName : String) (weight : Option (Weight α))
  | gather (xs : List Nat) (plateName : String) (weight : Option (Weight α))
  | gatherTorch (xs : List (Ten α)) (plateName : String) (weight : Option (Weight α))
  | addCost (x : Nat) (name : Option String)
  | addCostTorch (t : Ten α) (name : Option String)
  | mimic (x : Nat) (t : Ten α) (ps : List (Plate α))
  | grad (ag : Autograd' α) (outputs : List Nat) (inputs : List (GArg α)) (gradOutputs : Option (List (GArg α)))
  | surrogate (script : Cmd α)
  | backward (createGraph : Bool) (script : Cmd α) (sl : Nat) (late : Option Err)
  | reset

/-- `with ignore_wrapping(): body` (wrappers.py:570-574): the flag is reset only when the body does not
raise. -/
def World.ignoringCall (body : World α → World α × Except Err Unit) (w : World α) : World α × Except Err Unit :=
  match body { w with ignoreWrap := true } with
  | (w1, .error e) => (w1, .error e)
  | (w1, .ok ()) => ({ w1 with ignoreWrap := false }, .ok ())

/-- The observer notes an accepted cost.  No Python counterpart: it watches inference.py:100-102. -/
def World.noteCost (grad : Bool) : World α × Except Err Nat → World α × Except Err Unit
  | (w, .error e) => (w, .error e)
  | (w, .ok id) => ({ w with log := w.log ++ [.addedCost id grad] }, .ok ())

/-- Running a program.  The functions are inference.py:26-102, 105-272, method.py:93-193, storch.py:219-255 and
wrappers.py:341-574. -/
def exec [ValEq α] (env : World.Env α) : Cmd α → World α → World α × Except Err Unit
  | .skip, w => (w, .ok ())
  | .fail e, w => (w, .error e)
  | .use ids, w => if ids.any (fun i => decide (w.size ≤ i)) then (w, .error .name) else (w, .ok ())
  | .seq a b, w =>
    match exec env a w with
    | (w1, .error e) => (w1, .error e)
    | (w1, .ok ()) => exec env b w1
  | .attempt a b, w =>
    match exec env a w with
    | (w1, .error _) => exec env b w1
    | (w1, .ok ()) => (w1, .ok ())
  | .tensor name t parents plates, w =>
    if parents.any (fun i => decide (w.size ≤ i)) then (w, .error .name)
    else
      match w.newNode .plain name t parents (.fresh plates) false none with
      | (w1, .error e) => (w1, .error e)
      | (w1, .ok _) => (w1, .ok ())
  | .det args reduced name body outs, w => World.detCall env args reduced name (exec env body) outs w
  | .stoch callOk args body outs, w => World.stochCall env callOk args (exec env body) outs w
  | .ignoring body, w => World.ignoringCall (exec env body) w
  | .gradMode on body, w =>
    let r := exec env body { w with gradEnabled := on }
    ({ r.1 with gradEnabled := w.gradEnabled }, r.2)
  | .sample s body, w => World.sampleCall env s (exec env body) w
  | .denote x dim pn wt, w => World.denote env w x dim pn wt
  | .denoteTorch t dim pn wt, w => World.denoteTorch env w t dim pn wt
  | .gather xs pn wt, w => World.gather env w xs pn wt
  | .gatherTorch xs pn wt, w => World.gatherTorch env w xs pn wt
  | .addCost x name, w => World.noteCost w.gradEnabled (World.addCost env w x name)
  | .addCostTorch t name, w => World.noteCost w.gradEnabled (World.addCostTorch w t name)
  | .mimic x t ps, w => World.mimic w x t ps
  | .grad ag os is gos, w =>
    match World.gradCall env ag os is gos w with
    | (w1, .error e) => (w1, .error e)
    | (w1, .ok _) => (w1, .ok ())
  | .surrogate script, w => World.surrogateLoss (exec env script) w
  | .backward cg script sl late, w => World.backward cg (exec env script) sl late w
  | .reset, w => World.reset w

/-- The states that programs can reach.
No Python counterpart: the states between calls of inference.py, method.py and wrappers.py. -/
def Reachable [ValEq α] [Inhabited α] (env : World.Env α) (w : World α) : Prop :=
  ∃ c : Cmd α, (exec env c World.init).1 = w

end Storch
