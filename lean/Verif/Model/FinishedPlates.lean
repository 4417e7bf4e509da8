import Verif.Model.DecodePlates

/-!
# Finished sequences where tensors carry their plates in different orders (storch/sampling/swor.py:92-108)

`Verif.Model.DecodePlates` has all tensors in one order of the plates.  Here every tensor has its own order, as the wrappers
and `decode` produce them.
-/

namespace Storch.Decode

variable {α β : Type _}

/-- `all_multi_dim_plates` (seq.py:435-457): the plates of the distribution, then those of the joint log-probabilities that
the distribution does not have.  `own` is the name of the decoder's plate.  The support, and with it the sample (seq.py:546,
610) and `finished_samples` (seq.py:202), have the plates in this order. -/
def decodePlates [ValEq α] (own : String) (distr prev : List (Plate α)) : List (Plate α) :=
  let ds := distr.filter (fun p => decide (1 < p.n) && !(p.name == own))
  ds ++ (prev.filter (fun p => decide (1 < p.n))).filter (fun p => !(p.isIn ds))

/-- A storch tensor: the names of the plates that its first dimensions stand for, and the torch tensor.  tensor.py:225, 241.
Simplified: plates with one sample, which have no dimension, are left out. -/
structure NTen (β : Type _) where
  names : List String
  ten : Ten β

/-- The torch tensor with the plates in the given order, as the wrappers pass it on (wrappers.py:99-106; C05 is about their
loop).  Simplified: these are all plates of the tensor. -/
def NTen.reorder (order : List String) (x : NTen β) : Except Err (Ten β) :=
  permuteT x.ten (order.map x.names.idxOf ++ (List.range (x.ten.ndim - x.names.length)).map (· + x.names.length))

/-- `t[mask]` for torch tensors of the same shape: the elements at the places of the mask, in the order of memory.
swor.py:98-100. -/
def maskSelect (t : Ten β) (m : Ten Bool) : Except Err (List β) :=
  if m.shape = t.shape then .ok (((allIdx m.shape).filter m.get).map t.get) else .error .index

/-- How many places of the mask come before the index.  swor.py:108: torch assigns the rows in the order of memory. -/
def maskRank (m : Ten Bool) (ix : List Nat) : Nat := ((allIdx m.shape).takeWhile (fun j => decide (j ≠ ix))).countP m.get

/-- `t[mask] = rows` for a mask over all dimensions but the last.  swor.py:108. -/
def maskAssign (t : Ten β) (m : Ten Bool) (rows : List (Nat → β)) : Except Err (Ten β) :=
  if m.shape ≠ t.shape.dropLast then .error .index
  else if rows.length ≠ (allIdx m.shape).countP m.get then .error .torch
  else .ok ⟨t.shape, fun idx =>
    if m.get idx.dropLast then
      match rows[maskRank m idx.dropLast]? with
      | some f => f (idx.getLast?.getD 0)
      | none => t.get idx
    else t.get idx⟩

/-- swor.py:93-108.  Line 98-100 index the torch tensor of `perturbed_log_probs` with the torch tensor of
`finished_samples`; line 108 goes through the wrapper of `__setitem__` (tensor.py:326-328), which brings the mask into the
order of `cond_G_yv`. -/
def markFinished (eos : Nat) (fin : NTen Bool) (perturbed G : NTen (WithBot α)) : Except Err (NTen (WithBot α)) :=
  match maskSelect perturbed.ten fin.ten with
  | .error e => .error e
  | .ok vals =>
    if G.ten.shape.getLast?.getD 0 ≤ eos then .error .index
    else
      match fin.reorder G.names with
      | .error e => .error e
      | .ok m =>
        match maskAssign G.ten m (vals.map fun v t => if t = eos then v else ⊥) with
        | .error e => .error e
        | .ok g => .ok ⟨G.names, g⟩

end Storch.Decode
