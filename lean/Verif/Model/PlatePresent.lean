import Verif.Model.Decode

/-!
# Distributions that already carry the plate of the estimator (storch/method/method.py:124-126,
storch/sampling/method.py:102-107, storch/sampling/swor.py:209-215)

Before it samples, `Method.sample` asks the sampling method about every plate of the distribution that has the name of
the estimator's plate.
-/

namespace Storch.Decode
variable {α : Type _}

/-- A plate of the parameters of a distribution, as far as the check reads it: the name, the number of samples, and the
`variable_index` if it is an `AncestralPlate`.  tensor.py:24-37, seq.py:16-42. -/
structure PlateSeen where
  name : String
  n : Nat
  index : Option Nat
  deriving DecidableEq

/-- The plate of a variable that a decoder with the plate name `name` has decoded.  seq.py:300-310. -/
def APlate.seen (name : String) (p : APlate α) : PlateSeen := ⟨name, p.n, some p.varIdx⟩

/-- `SamplingMethod.on_plate_already_present` (sampling/method.py:102-107): always raises. -/
def presentBase (_ : PlateSeen) : Except Err Unit := .error .value

/-- `SampleWithoutReplacement.on_plate_already_present` (swor.py:209-215), in a decoder with `k` samples whose
`variable_index` is `varIdx`. -/
def presentSwor (k varIdx : Nat) (p : PlateSeen) : Except Err Unit :=
  match p.index with
  | none => presentBase p
  | some i => if varIdx < i ∨ k < p.n then presentBase p else .ok ()

/-- `sampling_method.on_plate_already_present(plate)`: only `SampleWithoutReplacement` overrides it, and its subclasses
inherit that.  sampling/method.py:102-107, swor.py:209-215. -/
def Decoder.present (x : Decoder α) (p : PlateSeen) : Except Err Unit :=
  match x.cls with
  | .mc _ _ => presentBase p
  | .importance _ _ _ => presentBase p
  | .swor k _ _ => presentSwor k x.st.varIdx p

/-- The loop of method.py:124-126 over the plates of the distribution; `name` is the plate name of the estimator, which
is that of its sampling method (method.py:43-47). -/
def Decoder.checkPlates (x : Decoder α) (name : String) : List PlateSeen → Except Err Unit
  | [] => .ok ()
  | p :: ps =>
    if p.name = name then
      match x.present p with
      | .error e => .error e
      | .ok () => x.checkPlates name ps
    else x.checkPlates name ps

end Storch.Decode
