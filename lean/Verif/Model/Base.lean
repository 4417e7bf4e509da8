/-!
# Errors and list primitives shared by all models

Python exceptions are modelled as values of type `Err`; the constructor names the exception class.
-/

namespace Storch

/-- The exception classes raised by storchastic and by the torch/Python primitives it calls.
For example tensor.py:186-221, storch.py:172-174, wrappers.py:504-510. -/
inductive Err
  | value          -- ValueError
  | index          -- IndexError
  | type           -- TypeError
  | runtime        -- RuntimeError
  | notImplemented -- NotImplementedError
  | expose         -- storch.exceptions.IllegalStorchExposeError
  | attribute      -- AttributeError
  | unbound        -- UnboundLocalError
  | assertion      -- AssertionError
  | torch          -- RuntimeError raised by a torch primitive (shape or dimension mismatch)
  | key            -- KeyError
  | name           -- NameError
  | zeroDiv        -- ZeroDivisionError
  | diverge        -- not an exception: the fuel of a modelled loop ran out (shown not to happen)
  | user (n : Nat) -- an exception raised by user code
  deriving DecidableEq, Repr

/-- `l[i], l[j] = l[j], l[i]` on a Python list (wrappers.py:105, inference.py:156-159); also the
effect of `Tensor.transpose(i, j)` on a shape.  Out-of-range positions leave the list alone; all
callers check the range first and raise. -/
def swapAt {β : Type _} (l : List β) (i j : Nat) : List β :=
  match l[i]?, l[j]? with
  | some a, some b => (l.set i b).set j a
  | _, _ => l

/-- Python's `list.index(x)` for an arbitrary equality test: position of the first match.
Used at tensor.py:136-137, seq.py:139-140. -/
def indexBy {β : Type _} (eq : β → β → Bool) (x : β) : List β → Option Nat
  | [] => none
  | y :: ys => if eq y x then some 0 else (indexBy eq x ys).map (· + 1)

/-- Python's `x in list` for an arbitrary equality test.  Used at wrappers.py:51, tensor.py:139-140. -/
def memBy {β : Type _} (eq : β → β → Bool) (x : β) (l : List β) : Bool :=
  l.any (fun y => eq y x)

/-- Python's `list.remove(x)` for an arbitrary equality test: drop the first match, `none` when there
is none (ValueError).  Used at storch.py:169. -/
def removeBy {β : Type _} (eq : β → β → Bool) (x : β) : List β → Option (List β)
  | [] => none
  | y :: ys => if eq y x then some ys else (removeBy eq x ys).map (y :: ·)

/-- `d[k]` / `d.get(k)` on a dict, kept as an association list in insertion order.
Used at storch.py:157, 167-168, util.py:36-55, method.py:70. -/
def dget {β : Type _} (d : List (String × β)) (k : String) : Option β :=
  match d with
  | [] => none
  | (k', v) :: r => if k' = k then some v else dget r k

/-- `d[k] = v`.  Used at storch.py:155-162, util.py:44-54, method.py:71-75. -/
def dset {β : Type _} (d : List (String × β)) (k : String) (v : β) : List (String × β) :=
  match d with
  | [] => [(k, v)]
  | (k', v') :: r => if k' = k then (k, v) :: r else (k', v') :: dset r k v

end Storch
