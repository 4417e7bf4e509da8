import Verif.Model.Decode

/-!
# What a decoder reports about the sequences (storch/sampling/seq.py:312-338)
-/

namespace Storch.Decode

variable {α : Type _}

/-- The result of `get_amt_finished` (seq.py:318-325): the number 0, or a tensor with the given elements. -/
inductive Amount
  | zero
  | counts (l : List Nat)
  deriving DecidableEq

/-- `SequenceDecoding.get_amt_finished` (seq.py:318-325).  `events` is the shape of the independent dimensions of the newest
variable: the sum is over the last dimension, which is the sample dimension only if there are none.  The mask with
independent dimensions is the comparison of the newest samples with the token (seq.py:201-202). -/
def amtFinished (eos : Option Nat) (events : List Nat) (s : St α) : Except Err Amount :=
  match eos with
  | none => .error .runtime
  | some 0 => .error .runtime
  | some e =>
    match s.finished with
    | none => .ok .zero
    | some (.rows m) => .ok (.counts [m.count true])
    | some .cells => .ok (.counts ((s.seq.getLast?.getD []).flatMap fun row =>
        (row.toChunks (events.getLast?.getD 1)).map (List.count e)))

/-- `SequenceDecoding.all_finished` (seq.py:333-338): a number has no method `eq`. -/
def allFinished (k : Nat) (eos : Option Nat) (events : List Nat) (s : St α) : Except Err Bool :=
  match amtFinished eos events s with
  | .error e => .error e
  | .ok .zero => .error .attribute
  | .ok (.counts l) => .ok (l.all (· == k))

/-- The decoded tokens of a variable as a tensor: the plate of the decoder is a dimension if it has more than one sample.
The tensors of `self.seq` (seq.py:265). -/
def seqTen (events : List Nat) (rows : List (List Nat)) : Ten Nat :=
  if rows.length = 1 then ⟨events, fun idx => (rows.getD 0 []).getD (Ten.ravel events idx) 0⟩
  else ⟨rows.length :: events, fun idx => (rows.getD (idx.getD 0 0) []).getD (Ten.ravel events idx.tail) 0⟩

/-- Two tensors fit for `torch.cat` along a dimension: the sizes of the other dimensions agree.  Called at seq.py:316. -/
def catFits (dim : Nat) (a b : List Nat) : Bool :=
  a.length == b.length && (a.eraseIdx dim == b.eraseIdx dim)

/-- `torch.cat([a, b], dim)` for tensors that fit.  Called at seq.py:316. -/
def cat2 {β : Type _} (dim : Nat) (a b : Ten β) : Ten β :=
  ⟨a.shape.set dim (a.shape.getD dim 0 + b.shape.getD dim 0), fun idx =>
    if idx.getD dim 0 < a.shape.getD dim 0 then a.get idx
    else b.get (idx.set dim (idx.getD dim 0 - a.shape.getD dim 0))⟩

/-- `torch.cat(tensors, dim)` for a dimension that is not negative (seq.py:316): tensors without dimensions are refused, and
so are dimensions out of range. -/
def catL {β : Type _} (dim : Nat) : List (Ten β) → Except Err (Ten β)
  | [] => .error .torch
  | t :: ts =>
    if t.ndim = 0 then .error .runtime
    else if t.ndim ≤ dim then .error .index
    else if ts.all (fun u => catFits dim t.shape u.shape) then .ok (ts.foldl (cat2 dim) t)
    else .error .runtime

/-- `SequenceDecoding.get_sampled_seq()` (seq.py:312-316) for all sequences; `events` are the shapes of the independent
dimensions of the variables.  The wrapper of `torch.cat` unwraps the tensors, which all carry the newest plate
(seq.py:235-236), and wraps the result again. -/
def sampledSeq (events : List (List Nat)) (s : St α) : Except Err (Ten Nat) :=
  match s.seq with
  | [] => .error .index
  | rows :: _ => catL (if rows.length = 1 then 0 else 1) (List.zipWith seqTen events s.seq)

end Storch.Decode
