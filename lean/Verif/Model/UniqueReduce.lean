import Verif.Model.Unique

/-!
# Reducing a `UniquePlate` (storch/unique.py:30-34)
-/

namespace Storch
variable {α : Type _}

/-- `UniquePlate.reduce(unique_tensor)` (unique.py:30-34), for a `UniquePlate` with these fields: the unique tensor is
undone once, and the replaced plates are reduced.  `red` is `storch.reduce_plates` (storch.py:107-128), which is not modelled for
tensors with unique plates: what is shown holds whatever it does. -/
def UTen.reduceUniq {β : Type _} [Zero α] [ValEq α] (red : UTen α → List (UPlate α) → Except Err β) (t : UTen α)
    (name : String) (sh : List (UPlate α)) (inv : Ten Nat) : Except Err β := do
  let nonUnique ← t.undoPlate name sh inv
  red nonUnique sh

end Storch
