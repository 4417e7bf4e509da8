import Verif.Model.Plate

/-!
# `storch.unique` and `storch.undo_unique` (storch/unique.py)
-/

namespace Storch

/-- `torch.flatten(tensor, k)` (unique.py:82): dimensions from `k` on become one; without dimensions the result has one. -/
def Ten.flattenFrom {α : Type _} (t : Ten α) (k : Nat) : Except Err (Ten α) :=
  if t.shape.length ≤ k ∧ t.shape ≠ [] then .error .index
  else .ok ⟨t.shape.take k ++ [Ten.numel (t.shape.drop k)],
    fun idx => t.get (idx.take k ++ Ten.unravel (t.shape.drop k) (idx.getD k 0))⟩

/-- `torch.index_select(tensor, dim=0, index=index)` (unique.py:66-68): the index is a vector (or a single number) of
positions below the size of the first dimension. -/
def Ten.indexSelect {α : Type _} (t : Ten α) (index : Ten Nat) : Except Err (Ten α) :=
  match t.shape with
  | [] => .error .index
  | n :: rest =>
    match index.shape with
    | [] => if index.get [] < n then .ok ⟨1 :: rest, fun idx => t.get (index.get [] :: idx.drop 1)⟩ else .error .index
    | [m] =>
      if ∀ i ∈ List.range m, index.get [i] < n then
        .ok ⟨m :: rest, fun idx => t.get (index.get [idx.getD 0 0] :: idx.drop 1)⟩
      else .error .index
    | _ => .error .index

/-- A plate, or a `UniquePlate` with its name, its size, its `shrunken_plates` and its `inv_indexing` (unique.py:17-28).
Of the index tensor only the numbers are kept; its plates are those of the original tensor. -/
inductive UPlate (α : Type _)
  | base (p : Plate α)
  | uniq (name : String) (n : Nat) (shrunken : List (UPlate α)) (inv : Ten Nat)

namespace UPlate
variable {α : Type _}

/-- What the constructor of tensors and `Plate.__eq__` see of a plate: name, size and weight (unique.py:25-28; tensor.py:39-58).
The weight of a `UniquePlate` is `None`, which compares as a torch weight does. -/
def view [Zero α] : UPlate α → Plate α
  | base p => p
  | uniq name n _ _ => .mk name n (.torch (Ten.scalar 0)) .plain []

/-- `plate.name` (tensor.py:35) -/
def name : UPlate α → String
  | base p => p.name
  | uniq s _ _ _ => s

/-- `plate.n` (tensor.py:36) -/
def n : UPlate α → Nat
  | base p => p.n
  | uniq _ k _ _ => k

/-- `isinstance(plate, UniquePlate)` (unique.py:49, 101, 108) -/
def isUniq : UPlate α → Bool
  | base _ => false
  | uniq .. => true

mutual
/-- `self.has_shrunken(plate)` (unique.py:45-51); ordinary plates do not have the method. -/
def hasShrunken [Zero α] [ValEq α] (plate : UPlate α) : UPlate α → Bool
  | base _ => false
  | uniq _ _ sh _ => anyShrunken plate sh
/-- The loop of `has_shrunken` (unique.py:46-51). -/
def anyShrunken [Zero α] [ValEq α] (plate : UPlate α) : List (UPlate α) → Bool
  | [] => false
  | q :: qs => Plate.pyEq plate.view q.view || hasShrunken plate q || anyShrunken plate qs
end

/-- `plate.on_collecting_args(plates)` for all plates that a wrapper has collected (unique.py:36-43, wrappers.py:219).  The
check of ordinary plates fires only for two plates of one name (tensor.py:103-118, modelled in `Plate.onCollecting`), which
one tensor does not have, so only the override is modelled. -/
def collect [Zero α] [ValEq α] (plates : List (UPlate α)) : Except Err Unit :=
  if plates.any (fun p => plates.any (fun q => hasShrunken q p)) then .error .value else .ok ()

end UPlate

/-- A storch tensor whose plates may be `UniquePlate`s (tensor.py:171-241, unique.py:95). -/
structure UTen (α : Type _) where
  ten : Ten α
  plates : List (UPlate α)
  plateDims : Nat

namespace UTen
variable {α : Type _}

/-- `storch.Tensor(tensor, parents, plates)` (tensor.py:171-241). -/
def mk' [Zero α] (t : Ten α) (plates : List (UPlate α)) : Except Err (UTen α) :=
  match STen.checkPlates t.shape (plates.map UPlate.view) [] 0 with
  | .error e => .error e
  | .ok d => .ok ⟨t, plates, d⟩

/-- `tensor.multi_dim_plates()` (tensor.py:544-545). -/
def multiDim (t : UTen α) : List (UPlate α) := t.plates.filter (fun p => decide (1 < p.n))

/-- `tensor.get_plate_dim_index(name)` (tensor.py:530-538). -/
def dimIndex (t : UTen α) (name : String) : Except Err Nat :=
  match indexBy (fun a b => a == b) name (t.multiDim.map UPlate.name) with
  | some i => .ok i
  | none => .error .index

/-- `is_unique(tensor)` (unique.py:106-110). -/
def isUnique (t : UTen α) : Bool := t.plates.any UPlate.isUniq

/-- `plate.undo_unique(tensor)` (unique.py:53-77), for a `UniquePlate` with these fields.  `transpose` is called through
the wrapper, which collects the plates of the tensor first; `index_select` and `reshape` see torch tensors. -/
def undoPlate [Zero α] [ValEq α] (t : UTen α) (name : String) (sh : List (UPlate α)) (inv : Ten Nat) :
    Except Err (UTen α) := do
  let i ← t.dimIndex name
  UPlate.collect t.plates
  let swapped ← t.ten.transpose i (t.plateDims - 1)
  let fl ← swapped.indexSelect inv
  let sel ← fl.reshape (sh.map UPlate.n ++ fl.shape.drop 1)
  mk' sel (sh ++ t.plates)

/-- The loop `for plate in tensor.plates` of `undo_unique` (unique.py:100-102), over the plates the tensor had before. -/
def undoFor [Zero α] [ValEq α] : List (UPlate α) → UTen α → Except Err (UTen α)
  | [], t => .ok t
  | .base _ :: ps, t => undoFor ps t
  | .uniq name _ sh inv :: ps, t => do
    let t' ← t.undoPlate name sh inv
    undoFor ps t'

/-- `undo_unique(tensor)` (unique.py:98-103).  The number bounds the turns of the `while` loop. -/
def undoUnique [Zero α] [ValEq α] : Nat → UTen α → Except Err (UTen α)
  | 0, _ => .error .diverge
  | fuel + 1, t =>
    if t.isUnique then
      match undoFor t.plates t with
      | .error e => .error e
      | .ok t' => undoUnique fuel t'
    else .ok t

/-- `unique(tensor, event_dim)` (unique.py:80-95).  `tu` is `torch.unique(·, return_inverse=True, dim=event_dim)`.
The constructor of `Plate` divides by the number of unique elements (tensor.py:34). -/
def unique [Zero α] [ValEq α] (tu : Ten α → Except Err (Ten α × Ten Nat)) (t : UTen α) (name : String) :
    Except Err (UTen α) := do
  UPlate.collect t.plates
  let fl ← t.ten.flattenFrom t.plateDims
  let (uniq, inverse) ← tu fl
  let _ ← STen.checkPlates inverse.shape (t.plates.map UPlate.view) [] 0
  match uniq.shape with
  | [] => .error .index
  | 0 :: _ => .error .zeroDiv
  | n :: _ => mk' uniq [.uniq ("uq_plate_" ++ name) n t.multiDim inverse]

end UTen

end Storch
