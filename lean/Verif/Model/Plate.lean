import Verif.Model.Torch
import Mathlib.Algebra.Field.Defs

/-!
# Plates

`storch.Plate` (storch/tensor.py:24-140) and `AncestralPlate` (storch/sampling/seq.py:16-143), as far
as identity, collection and reduction need them.
-/

namespace Storch

/-- Element equality `a == b` of torch elements.  For exact number types it is equality; for elements
on an autograd graph it compares the values only.  Used at tensor.py:54. -/
class ValEq (α : Type _) where
  veq : α → α → Bool
  refl : ∀ a, veq a a = true
  symm : ∀ a b, veq a b = true → veq b a = true
  trans : ∀ a b c, veq a b = true → veq b c = true → veq a c = true

/-- Exact numbers are compared by equality.  Used at tensor.py:54. -/
instance (priority := low) instValEqOfDecidableEq {α : Type _} [DecidableEq α] : ValEq α where
  veq a b := decide (a = b)
  refl a := by simp
  symm a b h := by simpa using (of_decide_eq_true h).symm
  trans a b c h h' := by simpa using (of_decide_eq_true h).trans (of_decide_eq_true h')

/-- All valid indices of a tensor of the given shape, in row-major order.
The elements that `.all()` looks at (tensor.py:54). -/
def allIdx : List Nat → List (List Nat)
  | [] => [[]]
  | d :: s => (List.range d).flatMap (fun i => (allIdx s).map (i :: ·))

/-- `(a == b).all()` for two torch tensors of the same shape, `False` for different shapes
(tensor.py:52-54). -/
def Ten.eqAll {α : Type _} [ValEq α] (a b : Ten α) : Bool :=
  a.shape == b.shape && (allIdx a.shape).all (fun idx => ValEq.veq (a.get idx) (b.get idx))

/-- `plate.weight`: a plain torch tensor (`torch.tensor(1/n)` by default, tensor.py:34; a vector for
ARM, arm.py:56-63, and REBAR, relax.py:239-249) or a `storch.Tensor`.  For a storch weight the names of the
plates of that tensor are kept; the plates themselves are the owning plate and its parents. -/
inductive Weight (α : Type _)
  | torch (t : Ten α)
  | storch (t : Ten α) (plates : List String)

/-- The torch tensor underneath a weight.  `self.weight._tensor` (tensor.py:50-54). -/
def Weight.ten {α : Type _} : Weight α → Ten α
  | .torch t => t
  | .storch t _ => t

/-- Class of a plate: `Plate`, or `AncestralPlate` with its `variable_index` (seq.py:40). -/
inductive Kind
  | plain
  | anc (variableIndex : Nat)
  deriving DecidableEq, Repr

/-- A plate: `name`, `n`, `weight`, class, `parents` (tensor.py:25-37). -/
inductive Plate (α : Type _)
  | mk (name : String) (n : Nat) (weight : Weight α) (kind : Kind) (parents : List (Plate α))

namespace Plate
variable {α : Type _}

/-- `plate.name` (tensor.py:35) -/
def name : Plate α → String | mk s _ _ _ _ => s
/-- `plate.n` (tensor.py:36) -/
def n : Plate α → Nat | mk _ k _ _ _ => k
/-- `plate.weight` (tensor.py:32-34) -/
def weight : Plate α → Weight α | mk _ _ w _ _ => w
/-- the class of the plate (tensor.py:24, seq.py:16) -/
def kind : Plate α → Kind | mk _ _ _ k _ => k
/-- `plate.parents` (tensor.py:37) -/
def parents : Plate α → List (Plate α) | mk _ _ _ _ ps => ps

/-- `Plate(name, n, parents)` with the default weight `torch.tensor(1.0 / n)` (tensor.py:32-37).
Python raises ZeroDivisionError for `n = 0`; such plates need an explicit weight. -/
def default [DivisionRing α] (name : String) (n : Nat) (parents : List (Plate α)) : Plate α :=
  mk name n (.torch (Ten.scalar ((1 : α) / (n : α)))) .plain parents

variable [ValEq α]

/-- `Plate.__eq__` (tensor.py:39-58).  The identity shortcut on line 50 is subsumed: elements are
exact, so a tensor equals itself.  Torch weights are not compared, as in the code. -/
def baseEq (self other : Plate α) : Bool :=
  if self.name != other.name then false
  else if self.n != other.n then false
  else match self.weight, other.weight with
    | .storch s _, .storch t _ => s.eqAll t
    | .storch _ _, .torch _ => false
    | .torch _, .storch _ _ => false
    | .torch _, .torch _ => true

/-- The `__eq__` method of the class of `self`: `Plate.__eq__` or `AncestralPlate.__eq__`
(seq.py:44-52).  `_override_equality` is only set while `on_unwrap_tensor` gathers and is modelled
there. -/
def eqMethod (self other : Plate α) : Bool :=
  match self.kind with
  | .plain => baseEq self other
  | .anc i =>
    match other.kind with
    | .plain => false
    | .anc j => baseEq self other && i == j

/-- `a == b` in Python: when the class of `b` is a strict subclass of the class of `a`, `b.__eq__(a)`
is called first (and never returns `NotImplemented`); otherwise `a.__eq__(b)`.
Python calls it at wrappers.py:51 and storch.py:199; the methods are tensor.py:39-58 and seq.py:44-52. -/
def pyEq (a b : Plate α) : Bool :=
  match a.kind, b.kind with
  | .plain, .anc _ => eqMethod b a
  | _, _ => eqMethod a b

/-- `plate in plates` (also `Plate.is_in`, tensor.py:139-140). -/
def isIn (p : Plate α) (ps : List (Plate α)) : Bool := memBy pyEq p ps

/-- `plate.is_in(plates)`: by equality for plates (tensor.py:139), by name for ancestral plates
(seq.py:142-143). -/
def isInMethod (p : Plate α) (ps : List (Plate α)) : Bool :=
  match p.kind with
  | .plain => p.isIn ps
  | .anc _ => ps.any (fun q => q.name == p.name)

/-- `plate.index_in(plates)` (tensor.py:136, seq.py:139); raises ValueError when absent. -/
def indexIn (p : Plate α) (ps : List (Plate α)) : Except Err Nat :=
  match p.kind with
  | .plain => match indexBy pyEq p ps with | some i => .ok i | none => .error .value
  | .anc _ =>
    match indexBy (fun a b => a == b) p.name (ps.map Plate.name) with
    | some i => .ok i
    | none => .error .value

/-- `self.on_duplicate_plate(plate)` (tensor.py:120, seq.py:74-81): the base class raises. -/
def onDuplicate (self plate : Plate α) : Except Err Bool :=
  match self.kind, plate.kind with
  | .plain, _ => .error .value
  | .anc _, .plain => .error .value
  | .anc i, .anc j => .ok (decide (i < j))

/-- `self.on_collecting_args(plates)` (tensor.py:103-118).  The `_in_recursion` prelude of the
ancestral override (seq.py:68-71) is inactive outside `on_unwrap_tensor`. -/
def onCollecting (self : Plate α) : List (Plate α) → Except Err Bool
  | [] => .ok true
  | p :: ps =>
    if p.name == self.name && !(pyEq p self) then
      match onDuplicate p self with
      | .error e => .error e
      | .ok false => .ok false
      | .ok true => onCollecting self ps
    else onCollecting self ps

end Plate

/-- A storch tensor as a value: the wrapped tensor, the plates, and the two numbers cached by the
constructor (tensor.py:238-241). -/
structure STen (α : Type _) where
  ten : Ten α
  plates : List (Plate α)
  plateDims : Nat

namespace STen
variable {α : Type _}

/-- `tensor.event_shape` (tensor.py:239). -/
def eventShape (t : STen α) : List Nat := t.ten.shape.drop t.plateDims
/-- `tensor.event_dims` (tensor.py:240). -/
def eventDims (t : STen α) : Nat := t.eventShape.length
/-- `tensor.multi_dim_plates()` (tensor.py:544-545). -/
def multiDimPlates (t : STen α) : List (Plate α) := t.plates.filter (fun p => decide (1 < p.n))

/-- The checking loop of `Tensor.__init__` (tensor.py:182-222); returns `batch_dims`. -/
def checkPlates (shape : List Nat) : List (Plate α) → List String → Nat → Except Err Nat
  | [], _, d => .ok d
  | p :: ps, names, d =>
    if p.name ∈ names then .error .value
    else if p.n = 1 then checkPlates shape ps (p.name :: names) d
    else if shape.length ≤ d then .error .value
    else if shape[d]? ≠ some p.n then .error .value
    else checkPlates shape ps (p.name :: names) (d + 1)

/-- `storch.Tensor(tensor, parents, plates)` (tensor.py:171-241) without the graph links, which are
modelled in `Verif.Model.World`. -/
def mk' (t : Ten α) (plates : List (Plate α)) : Except Err (STen α) :=
  match checkPlates t.shape plates [] 0 with
  | .error e => .error e
  | .ok d => .ok ⟨t, plates, d⟩

/-- `tensor.get_plate(name)` (tensor.py:524-528). -/
def getPlate (t : STen α) (name : String) : Except Err (Plate α) :=
  match t.plates.find? (fun p => p.name == name) with
  | some p => .ok p
  | none => .error .index

/-- `tensor.get_plate_dim_index(name)` (tensor.py:530-538). -/
def plateDimIndex (t : STen α) (name : String) : Except Err Nat :=
  match indexBy (fun a b => a == b) name (t.multiDimPlates.map Plate.name) with
  | some i => .ok i
  | none => .error .index

end STen

end Storch
