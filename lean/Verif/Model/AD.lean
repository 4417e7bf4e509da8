import Verif.Model.Plate
import Mathlib.Analysis.SpecialFunctions.Exp

/-!
# Tensor elements on an autograd graph

An element of a torch tensor that takes part in differentiation is modelled by the function from the
parameters to its value; `θ₀` is the current value of the parameters.  What torch's automatic
differentiation computes are then the derivatives of that function at `θ₀` (this is the trusted reading
of autograd).  `detach` keeps the value and forgets the dependency.
-/

namespace Storch

/-- The two operations on elements that depend on the autograd graph: `torch.exp` and
`tensor.detach()`.  Used by storch at util.py:28. -/
class Autograd (α : Type _) where
  exp : α → α
  detach : α → α

/-- Elements depending on parameters of type `E`, whose current value is `θ₀`.
In place of the element type of the torch tensors of util.py:28: a function of the parameters stands for the autograd graph. -/
def AD (E : Type _) (_θ₀ : E) := E → ℝ

namespace AD
variable {E : Type _} {θ₀ : E}

/-- Arithmetic on the elements (`+` and `*` of inference.py:189-202). -/
instance : CommRing (AD E θ₀) := inferInstanceAs (CommRing (E → ℝ))

/-- The number stored in the tensor.  What `magic_box` returns in the forward pass (util.py:25). -/
def val (x : AD E θ₀) : ℝ := x θ₀

/-- A number that does not depend on the parameters.
`new_tensor(0.0)` (inference.py:128), and what `detach` leaves (util.py:28). -/
def const (r : ℝ) : AD E θ₀ := fun _ => r

/-- `torch.exp` and `detach` (util.py:28). -/
noncomputable instance : Autograd (AD E θ₀) where
  exp x := fun θ => Real.exp (x θ)
  detach x := fun _ => x θ₀

/-- `a == b` compares the numbers stored in the tensors.  Used for plate weights (tensor.py:54). -/
noncomputable instance : ValEq (AD E θ₀) where
  veq a b := by classical exact decide (a.val = b.val)
  refl a := by simp
  symm a b h := by simpa using (of_decide_eq_true h).symm
  trans a b c h h' := by simpa using (of_decide_eq_true h).trans (of_decide_eq_true h')

@[simp] theorem add_apply (x y : AD E θ₀) (θ : E) : (x + y) θ = x θ + y θ := rfl
@[simp] theorem sub_apply (x y : AD E θ₀) (θ : E) : (x - y) θ = x θ - y θ := rfl
@[simp] theorem mul_apply (x y : AD E θ₀) (θ : E) : (x * y) θ = x θ * y θ := rfl
@[simp] theorem neg_apply (x : AD E θ₀) (θ : E) : (-x) θ = -x θ := rfl
@[simp] theorem zero_apply (θ : E) : (0 : AD E θ₀) θ = 0 := rfl
@[simp] theorem one_apply (θ : E) : (1 : AD E θ₀) θ = 1 := rfl
@[simp] theorem exp_apply (x : AD E θ₀) (θ : E) : (Autograd.exp x : AD E θ₀) θ = Real.exp (x θ) := rfl
@[simp] theorem detach_apply (x : AD E θ₀) (θ : E) : (Autograd.detach x : AD E θ₀) θ = x θ₀ := rfl
@[simp] theorem const_apply (r : ℝ) (θ : E) : (const r : AD E θ₀) θ = r := rfl

/-- Evaluation at a parameter value.
No Python counterpart: it is what differentiating the loss (inference.py:248) looks at. -/
def eval (θ : E) : AD E θ₀ →+* ℝ where
  toFun x := x θ
  map_one' := rfl
  map_mul' _ _ := rfl
  map_zero' := rfl
  map_add' _ _ := rfl

@[simp] theorem eval_apply (θ : E) (x : AD E θ₀) : eval θ x = x θ := rfl

end AD

end Storch
