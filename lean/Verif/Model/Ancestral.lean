import Verif.Model.Wrap

/-!
# Ancestral plates re-indexing tensors (storch/sampling/seq.py:16-143, 643-668)

Every step of a sequence decoder makes a new `AncestralPlate` of the same name with the next
`variable_index`; its `parent_plate` is the plate of the step before and its `selected_samples` the tensor of
parent indices.  The plates made so far are a `Chain`.  A tensor of an earlier step that is combined with one
of a later step is gathered along these indices when it is unwrapped.

The indices of `selected_samples` are long tensors; here they are tensors of the same element type as the
gathered tensor, and `asLong` reads an element as an index.
-/

namespace Storch

variable {α : Type _}

/-- The ancestral plates of a program: for a plate name and a variable index the plate object
(`parent_plate` links, seq.py:300-310: the variable indices of a decoder are consecutive) and its
`selected_samples` (seq.py:33). -/
structure Chain (α : Type _) where
  plate : String → Nat → Plate α
  sel : String → Nat → Option (STen α)

/-- `torch.gather(input, dim, index)`: raises unless the tensors have the same number of dimensions, the index
fits outside `dim`, and all indices are in range.  Used at seq.py:124-133. -/
def Ten.gather (asLong : α → Nat) (input : Ten α) (dim : Nat) (index : Ten α) : Except Err (Ten α) :=
  match input.shape[dim]? with
  | none => .error .index
  | some d =>
    if index.shape.length = input.shape.length ∧
        ((index.shape.eraseIdx dim).zip (input.shape.eraseIdx dim)).all (fun e => decide (e.1 ≤ e.2)) ∧
        (allIdx index.shape).all (fun idx => decide (asLong (index.get idx) < d)) then
      .ok ⟨index.shape, fun idx => input.get (idx.set dim (asLong (index.get idx)))⟩
    else .error .torch

/-- `_expand_with_ignore(tensor, expand_as, dim)` inside `expand_with_ignore_as` (seq.py:653-660): new
dimensions on the right, then expanded to the shape of `expand_as` except along `dim`. -/
def expandWithIgnore (dim : Nat) (t expandAs : Ten α) : Except Err (Ten α) :=
  let t' := t.noneRight (expandAs.ndim - t.ndim)
  match t'.shape[dim]? with
  | none => .error .torch
  | some d => t'.expand (expandAs.shape.take dim ++ [d] ++ expandAs.shape.drop (dim + 1))

variable [ValEq α]

/-- Is `q` the ancestral plate object `self`?.  The test `self == plate` with the override of seq.py:44-52. -/
def isSelf (self q : Plate α) : Bool := q.name == self.name && q.kind == self.kind

/-- Plate equality while `self._override_equality` holds (seq.py:47-48): by name as soon as `self` takes
part. -/
def eqOverride (self a b : Plate α) : Bool :=
  match a.kind, b.kind with
  | .anc _, .anc _ => if isSelf self a || isSelf self b then a.name == b.name else a.pyEq b
  | _, _ => a.pyEq b

/-- `plate.on_collecting_args(plates)` (seq.py:59-72) for a call inside `self.on_unwrap_tensor`, where
`self._in_recursion` holds: ancestral plates other than `self` drop out when `self` is collected; `self` stays,
as it equals every plate of its name. -/
def onCollectingRec (self q : Plate α) (all : List (Plate α)) : Except Err Bool :=
  if all.any (isSelf self) then
    if isSelf self q then .ok true
    else match q.kind with
      | .anc _ => .ok false
      | .plain => q.onCollecting all
  else q.onCollecting all

/-- `list(filter(lambda p: p.on_collecting_args(plates), plates))` (wrappers.py:220) for such a call. -/
def filterRec (self : Plate α) (all : List (Plate α)) : List (Plate α) → Except Err (List (Plate α))
  | [] => .ok []
  | p :: ps =>
    match onCollectingRec self p all with
    | .error e => .error e
    | .ok b =>
      match filterRec self all ps with
      | .error e => .error e
      | .ok r => .ok (if b then p :: r else r)

/-- `swapLoop` (wrappers.py:99-106) with plate equality `eq`. -/
def swapLoopBy (eq : Plate α → Plate α → Bool) :
    List (Plate α) → Ten α → List (Plate α) → Nat → Except Err (Ten α × List (Plate α))
  | [], t, links, _ => .ok (t, links)
  | p :: ps, t, links, amt =>
    if memBy eq p links then
      match links[amt]? with
      | .none => .error .index
      | some l =>
        if eq p l then swapLoopBy eq ps t links (amt + 1)
        else
          match indexBy eq p links with
          | .none => .error .value
          | some j =>
            match t.transpose j amt with
            | .error e => .error e
            | .ok t' => swapLoopBy eq ps t' (swapAt links amt j) (amt + 1)
    else swapLoopBy eq ps t links amt

/-- `unsqLoop` (wrappers.py:109-116) with plate equality `eq`. -/
def unsqLoopBy (eq : Plate α → Plate α → Bool) (aPlates : List (Plate α)) :
    List (Plate α) → Nat → Ten α → List Nat → Except Err (Ten α × List Nat)
  | [], _, t, dims => .ok (t, dims)
  | p :: ps, i, t, dims =>
    if memBy eq p aPlates then
      match t.shape[i]? with
      | .none => .error .index
      | some d => unsqLoopBy eq aPlates ps (i + 1) t (dims ++ [d])
    else
      match t.unsqueeze i with
      | .error e => .error e
      | .ok t' => unsqLoopBy eq aPlates ps (i + 1) t' (dims ++ [p.n])

/-- `_unsqueeze_and_unwrap` of a storch tensor (wrappers.py:80-127) with `expand_plates=True` and plate equality
`eq`. -/
def unwrapBy (eq : Plate α → Plate α → Bool) (hook : UnwrapHook α) (mdp : List (Plate α)) (eventDims : Nat)
    (a : STen α) : Except Err (Ten α) :=
  match hookLoop hook mdp a with
  | .error e => .error e
  | .ok a' =>
    let t0 := if a'.eventDims < eventDims then a'.ten.noneRight (eventDims - a'.eventDims) else a'.ten
    match swapLoopBy eq mdp t0 a'.multiDimPlates 0 with
    | .error e => .error e
    | .ok (t1, _) =>
      match unsqLoopBy eq a'.plates mdp 0 t1 [] with
      | .error e => .error e
      | .ok (t2, dims) => t2.expand (dims ++ t2.shape.drop dims.length)

/-- `storch.deterministic(fn, expand_plates=True, dim=name)(a, b)` (wrappers.py:177-272, 341-390) called inside
`self.on_unwrap_tensor`; `fn` receives the position of the plate. -/
def recCall (self : Plate α) (hook : UnwrapHook α) (name : String)
    (fn : Nat → Ten α → Ten α → Except Err (Ten α)) (a b : STen α) : Except Err (STen α) :=
  let all := addPlates (addPlates [] a.plates) b.plates
  match filterRec self all all with
  | .error e => .error e
  | .ok plates =>
    let mdp := plates.filter (fun p => decide (1 < p.n))
    match indexBy (fun x y => x == y) name (mdp.map Plate.name) with
    | none => .error .unbound
    | some dim =>
      let eq := if all.any (isSelf self) then eqOverride self else Plate.pyEq
      let ed := max a.eventDims b.eventDims
      match unwrapBy eq hook mdp ed a with
      | .error e => .error e
      | .ok ta =>
        match unwrapBy eq hook mdp ed b with
        | .error e => .error e
        | .ok tb =>
          match fn dim ta tb with
          | .error e => .error e
          | .ok r => STen.mk' r plates

/-- The body of the loop of seq.py:123-136 for the downstream plate with variable index `m`: gather the tensor
along the samples that this plate selected. -/
def unwrapStep (C : Chain α) (asLong : α → Nat) (hook : UnwrapHook α) (self : Plate α) (t : STen α) (m : Nat) :
    Except Err (STen α) :=
  match C.sel self.name m with
  | none => .error .attribute
  | some sel =>
    match recCall self hook self.name (fun dim a b => expandWithIgnore dim a b) sel t with
    | .error e => .error e
    | .ok expanded =>
      recCall self hook self.name (fun dim a b => a.gather asLong dim b) t expanded

/-- The loop of seq.py:123-136. -/
def unwrapLoop (C : Chain α) (asLong : α → Nat) (hook : UnwrapHook α) (self : Plate α) :
    List Nat → STen α → Except Err (STen α)
  | [], t => .ok t
  | m :: ms, t =>
    match unwrapStep C asLong hook self t m with
    | .error e => .error e
    | .ok t' => unwrapLoop C asLong hook self ms t'

/-- `self.on_unwrap_tensor(tensor)` (seq.py:83-137; the identity for ordinary plates, tensor.py:133-134).  The
wrapped calls inside call it again for the plates they collect: `self` itself returns its argument then
(`_in_recursion`, seq.py:95-97), any other plate runs in full.  The variable index decreases, so `fuel` larger
than it suffices; running out of it would be `diverge`. -/
def onUnwrap (C : Chain α) (asLong : α → Nat) : Nat → Plate α → STen α → Except Err (STen α)
  | 0, _, _ => .error .diverge
  | fuel + 1, self, t =>
    match self.kind with
    | .plain => .ok t
    | .anc i =>
      match t.plates.findIdx? (fun q => q.name == self.name) with
      | none => .ok t
      | some pos =>
        match t.plates[pos]? with
        | none => .ok t
        | some plate =>
          match plate.kind with
          | .plain => .error .assertion
          | .anc j =>
            if j = i then .ok t
            else if i < j then .error .assertion
            else
              match C.sel self.name i with
              | none => STen.mk' t.ten (t.plates.set pos self)
              | some _ =>
                if (C.plate self.name j).pyEq plate then
                  unwrapLoop C asLong
                    (fun q a => if isSelf self q then .ok a else onUnwrap C asLong fuel q a)
                    self (List.range' (j + 1) (i - j)) t
                else .error .assertion

/-- The unwrap hook of a program with these ancestral plates.  Called from wrappers.py:84-86; seq.py:83-137. -/
def Chain.hook (C : Chain α) (asLong : α → Nat) : UnwrapHook α := fun p t =>
  match p.kind with
  | .plain => .ok t
  | .anc i => onUnwrap C asLong (i + 1) p t

end Storch
