import Verif.Model.AD
import Mathlib.Algebra.DualNumber
import Mathlib.Algebra.Order.Field.Rat

/-!
# Values with one directional derivative

Dual numbers over the rationals: a number and its derivative along one direction.  They make whole runs of the
modelled library computable, so that a wrong gradient can be exhibited.  `torch.exp` is only used on zero in these runs
(inside `magic_box`); elsewhere the value given here is arbitrary.
-/

namespace Storch

/-- A number and its derivative.  In place of the elements of the torch tensors of util.py:28, in examples only. -/
abbrev Dual := DualNumber ℚ

namespace Dual

/-- The number `a` with derivative `b`.  No Python counterpart: notation for examples of util.py:28. -/
def of (a b : ℚ) : Dual := (a, b)

/-- The number.  The forward value (util.py:25). -/
def num (x : Dual) : ℚ := x.1

/-- The derivative.  The backward value (util.py:25). -/
def slope (x : Dual) : ℚ := x.2

/-- `+`, `*`, `-` on the elements (inference.py:189-202). -/
instance : DecidableEq Dual := inferInstanceAs (DecidableEq (ℚ × ℚ))

/-- `torch.exp` and `detach` (util.py:28). -/
instance : Autograd Dual where
  exp x := if x.num = 0 then of 1 x.slope else 0
  detach x := of x.num 0

/-- `==` on the elements (tensor.py:54). -/
instance : ValEq Dual := ⟨fun a b => decide (a.num = b.num), by simp, by simp +contextual [eq_comm],
  by simp +contextual⟩

end Dual

end Storch
