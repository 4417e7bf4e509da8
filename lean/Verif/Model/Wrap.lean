import Verif.Model.Plate

/-!
# The deterministic wrapper (storch/wrappers.py)

Python values that go into and come out of wrapped functions are trees of type `Val`.  The graph links
created by the output tensors and the context counters are modelled in `Verif.Model.World`; here a call
is a function of its arguments.
-/

namespace Storch

/-- How `_prepare_outputs_det` treats a `torch.distributions` object (wrappers.py:329-331). -/
inductive DistKind
  | discrete     -- Categorical, Bernoulli, OneHotCategorical(StraightThrough): `cls(probs)` is valid
  | relaxed      -- RelaxedOneHotCategorical, RelaxedBernoulli: the first parameter is the temperature
  | unsupported  -- every other distribution
  deriving DecidableEq, Repr

/-- A Python value passed to or returned from a wrapped function.
`iter` is an iterable that can be traversed once (generator, `map`, `zip`); `dict` and `distr` keep
their keys and values in two lists of the same length; `other` is any opaque value (numbers, strings).
The cases that wrappers.py:45-68, 71-174 and 275-338 tell apart. -/
inductive Val (α : Type _)
  | none
  | st (t : STen α) (stochastic : Bool)
  | torch (t : Ten α)
  | tup (xs : List (Val α))
  | lst (xs : List (Val α))
  | iter (xs : List (Val α))
  | dict (keys : List String) (vals : List (Val α))
  | distr (kind : DistKind) (rebuilds : Bool) (keys : List String) (params : List (Val α))
  | other (n : Nat)

variable {α : Type _}

/-- The two lists filled by `_collect_parents_and_plates`.  wrappers.py:45-52. -/
structure Coll (α : Type _) where
  parents : List (STen α)
  plates : List (Plate α)

section
variable [ValEq α]

/-- `for plate in a.plates: if plate not in plates: plates.append(plate)` (wrappers.py:50-52). -/
def addPlates (plates : List (Plate α)) : List (Plate α) → List (Plate α)
  | [] => plates
  | p :: ps => addPlates (if p.isIn plates then plates else plates ++ [p]) ps

mutual
/-- `_collect_parents_and_plates(a, parents, plates)` (wrappers.py:45-68): the updated lists and the
returned number of event dimensions. -/
def Val.collect : Val α → Coll α → Coll α × Nat
  | .st t _, c => (⟨c.parents ++ [t], addPlates c.plates t.plates⟩, t.eventDims)
  | .dict _ vs, c => collectList vs c 0
  | .tup xs, c => collectList xs c 0
  | .lst xs, c => collectList xs c 0
  | .iter xs, c => collectList xs c 0
  | .none, c => (c, 0)
  | .torch _, c => (c, 0)
  | .distr _ _ _ _, c => (c, 0)
  | .other _, c => (c, 0)
/-- The loop over the elements of an iterable, with the running maximum.  wrappers.py:61-67. -/
def collectList : List (Val α) → Coll α → Nat → Coll α × Nat
  | [], c, m => (c, m)
  | v :: vs, c, m =>
    let r := Val.collect v c
    collectList vs r.1 (max m r.2)
end

end

mutual
/-- The state of the caller's value after `_collect_parents_and_plates` has traversed it: one-shot
iterators are exhausted.  wrappers.py:61-67. -/
def Val.consumed : Val α → Val α
  | .tup xs => .tup (consumedList xs)
  | .lst xs => .lst (consumedList xs)
  | .iter _ => .iter []
  | .dict ks vs => .dict ks (consumedList vs)
  | .none => .none
  | .st t s => .st t s
  | .torch t => .torch t
  | .distr k r ks ps => .distr k r ks ps
  | .other n => .other n
/-- The same for the elements of an iterable (wrappers.py:61-67). -/
def consumedList : List (Val α) → List (Val α)
  | [] => []
  | v :: vs => Val.consumed v :: consumedList vs
end

section align
variable [ValEq α]

/-- The loop of wrappers.py:99-106 that brings the plate dimensions of a tensor into the order of
`multi_dim_plates`; the state is the tensor, `links` and `amt_recognized`. -/
def swapLoop : List (Plate α) → Ten α → List (Plate α) → Nat → Except Err (Ten α × List (Plate α))
  | [], t, links, _ => .ok (t, links)
  | p :: ps, t, links, amt =>
    if p.isIn links then
      match links[amt]? with
      | .none => .error .index
      | some l =>
        if p.pyEq l then swapLoop ps t links (amt + 1)
        else
          match indexBy Plate.pyEq p links with
          | .none => .error .value
          | some j =>
            match t.transpose j amt with
            | .error e => .error e
            | .ok t' => swapLoop ps t' (swapAt links amt j) (amt + 1)
    else swapLoop ps t links amt

/-- The loop of wrappers.py:109-116: singleton dimensions for plates the tensor does not have; returns
the tensor and `plate_dims`. -/
def unsqLoop (aPlates : List (Plate α)) : List (Plate α) → Nat → Ten α → List Nat →
    Except Err (Ten α × List Nat)
  | [], _, t, dims => .ok (t, dims)
  | p :: ps, i, t, dims =>
    if p.isIn aPlates then
      match t.shape[i]? with
      | .none => .error .index
      | some d => unsqLoop aPlates ps (i + 1) t (dims ++ [d])
    else
      match t.unsqueeze i with
      | .error e => .error e
      | .ok t' => unsqLoop aPlates ps (i + 1) t' (dims ++ [p.n])

/-- Options of `deterministic(...)` that reach `_prepare_args` (wrappers.py:177-187) together with
`reduce_plates`. -/
structure WCfg where
  unwrap : Bool := true
  alignTensors : Bool := true
  lBroadcast : Bool := true
  expandPlates : Bool := false
  flattenPlates : Bool := false
  dim : Option String := none
  dims : List String := []
  reducePlates : List String := []

/-- `plate.on_unwrap_tensor(tensor)`: the identity for ordinary plates (tensor.py:133-134).  The
override of `AncestralPlate` (seq.py:83-137) is a parameter here; it is modelled in
`Verif.Model.Ancestral`. -/
abbrev UnwrapHook (α : Type _) := Plate α → STen α → Except Err (STen α)

/-- wrappers.py:84-86. -/
def hookLoop (hook : UnwrapHook α) : List (Plate α) → STen α → Except Err (STen α)
  | [], a => .ok a
  | p :: ps, a =>
    match hook p a with
    | .error e => .error e
    | .ok a' => hookLoop hook ps a'

/-- The storch-tensor branch of `_unsqueeze_and_unwrap` after the `align_tensors` test and the hooks
(wrappers.py:88-127).  `expand` is `expand_plates or flatten_plates` (wrappers.py:245), so the assertion
on line 124 cannot fail. -/
def alignTen (lb expand flatten : Bool) (mdp : List (Plate α)) (eventDims : Nat) (a : STen α) :
    Except Err (Ten α) :=
  let t0 := if lb && decide (a.eventDims < eventDims) then
    a.ten.noneRight (eventDims - a.eventDims) else a.ten
  match swapLoop mdp t0 a.multiDimPlates 0 with
  | .error e => .error e
  | .ok (t1, _) =>
    match unsqLoop a.plates mdp 0 t1 [] with
    | .error e => .error e
    | .ok (t2, dims) =>
      match (if expand then t2.expand (dims ++ t2.shape.drop dims.length) else .ok t2) with
      | .error e => .error e
      | .ok t3 => if flatten then t3.flattenLeft dims.length else .ok t3

/-- `_unsqueeze_and_unwrap` on a storch tensor (wrappers.py:80-127). -/
def unwrapSt (hook : UnwrapHook α) (cfg : WCfg) (mdp : List (Plate α)) (eventDims : Nat) (a : STen α) :
    Except Err (Ten α) :=
  if !cfg.alignTensors then .ok a.ten
  else
    match hookLoop hook mdp a with
    | .error e => .error e
    | .ok a' => alignTen cfg.lBroadcast (cfg.expandPlates || cfg.flattenPlates) cfg.flattenPlates mdp
        eventDims a'

mutual
/-- `_unsqueeze_and_unwrap` (wrappers.py:71-174).  It runs after the collection traversal, so a
one-shot iterator yields nothing any more and becomes an empty list.  For a distribution, `rebuilds`
says whether constructing a copy from the unwrapped parameters succeeds (lines 163-172). -/
def Val.unwrap (hook : UnwrapHook α) (cfg : WCfg) (mdp : List (Plate α)) (ed : Nat) :
    Val α → Except Err (Val α)
  | .st t _ =>
    match unwrapSt hook cfg mdp ed t with
    | .error e => .error e
    | .ok r => .ok (.torch r)
  | .dict ks vs =>
    match unwrapList hook cfg mdp ed vs with
    | .error e => .error e
    | .ok rs => .ok (.dict ks rs)
  | .tup xs =>
    match unwrapList hook cfg mdp ed xs with
    | .error e => .error e
    | .ok rs => .ok (.tup rs)
  | .lst xs =>
    match unwrapList hook cfg mdp ed xs with
    | .error e => .error e
    | .ok rs => .ok (.lst rs)
  | .iter _ => .ok (.lst [])
  | .distr k r ks ps =>
    match unwrapList hook cfg mdp ed ps with
    | .error e => .error e
    | .ok rs =>
      if !r then .ok (.distr k r ks ps)
      else if "logits" ∈ ks ∧ "probs" ∈ ks then
        .ok (.distr k r ["logits"] ((ks.zip rs).filterMap (fun e => if e.1 = "logits" then some e.2 else Option.none)))
      else .ok (.distr k r ks rs)
  | .none => .ok .none
  | .torch t => .ok (.torch t)
  | .other n => .ok (.other n)
/-- The loops over elements in `_unsqueeze_and_unwrap`.  wrappers.py:128-157. -/
def unwrapList (hook : UnwrapHook α) (cfg : WCfg) (mdp : List (Plate α)) (ed : Nat) :
    List (Val α) → Except Err (List (Val α))
  | [] => .ok []
  | v :: vs =>
    match Val.unwrap hook cfg mdp ed v with
    | .error e => .error e
    | .ok r =>
      match unwrapList hook cfg mdp ed vs with
      | .error e => .error e
      | .ok rs => .ok (r :: rs)
end

/-- `list(filter(lambda p: p.on_collecting_args(plates), plates))` (wrappers.py:220); the closure sees
the unfiltered list. -/
def filterPlates (all : List (Plate α)) : List (Plate α) → Except Err (List (Plate α))
  | [] => .ok []
  | p :: ps =>
    match p.onCollecting all with
    | .error e => .error e
    | .ok b =>
      match filterPlates all ps with
      | .error e => .error e
      | .ok r => .ok (if b then p :: r else r)

/-- Arguments of a Python call: positional and keyword.  wrappers.py:177-187. -/
structure Args (α : Type _) where
  pos : List (Val α)
  kw : List (String × Val α)

/-- What `_prepare_args` returns.  wrappers.py:271-272. -/
structure Prep (α : Type _) where
  args : Args α
  parents : List (STen α)
  plates : List (Plate α)

/-- wrappers.py:228-233: `dim` names a plate whose position is passed on as the `dim` keyword. -/
def applyDim (mdp : List (Plate α)) (dim : Option String) (kw : List (String × Val α)) :
    Except Err (List (String × Val α)) :=
  match dim with
  | .none => .ok kw
  | some "" => .ok kw
  | some d =>
    match indexBy (fun a b => a == b) d (mdp.map Plate.name) with
    | some i => .ok (dset kw "dim" (.other i))
    | .none => .error .unbound

/-- wrappers.py:234-242: the `for dim in dims` loop.  When the plate is found `i_dim` is read, which is
bound only if `dim` was given as well; the `raise` after the inner loop is reached in every other
case. -/
def applyDims (mdp : List (Plate α)) (dim : Option String) (dims : List String)
    (kw : List (String × Val α)) : Except Err (List (String × Val α)) :=
  match dims with
  | [] => .ok kw
  | d :: _ =>
    match indexBy (fun a b => a == b) d (mdp.map Plate.name), dim with
    | some _, .none => .error .unbound
    | some _, some "" => .error .unbound
    | _, _ => .error .value

/-- Collection of wrappers.py:211-217: parents, plates and the maximal number of event dimensions. -/
def collectArgs (a : Args α) : Coll α × Nat :=
  let r1 := collectList a.pos ⟨[], []⟩ 0
  let r2 := collectList (a.kw.map Prod.snd) r1.1 0
  (r2.1, max r1.2 r2.2)

/-- `_prepare_args` (wrappers.py:177-272). -/
def prepareArgs (hook : UnwrapHook α) (cfg : WCfg) (a : Args α) : Except Err (Prep α) :=
  let c := collectArgs a
  match filterPlates c.1.plates c.1.plates with
  | .error e => .error e
  | .ok plates =>
    let mdp := plates.filter (fun p => decide (1 < p.n))
    match applyDim mdp cfg.dim a.kw with
    | .error e => .error e
    | .ok kw1 =>
      match applyDims mdp cfg.dim cfg.dims kw1 with
      | .error e => .error e
      | .ok kw =>
        if cfg.unwrap then
          match unwrapList hook cfg mdp c.2 a.pos with
          | .error e => .error e
          | .ok pos' =>
            match unwrapList hook cfg mdp c.2 (kw.map Prod.snd) with
            | .error e => .error e
            | .ok vals' =>
              .ok ⟨⟨pos', (kw.map Prod.fst).zip vals'⟩, c.1.parents, plates⟩
        else .ok ⟨⟨consumedList a.pos, kw.map (fun e => (e.1, e.2.consumed))⟩, c.1.parents, plates⟩

/-- wrappers.py:294-304 for one collected plate: replace an ancestral plate of the same name and lower
index, or insert the plate in front. -/
def mergePlate (plate : Plate α) (news : List (Plate α)) : Except Err (List (Plate α)) :=
  if news.any (fun q => q.name == plate.name) then
    match plate.kind with
    | .plain => .ok news
    | .anc i =>
      news.foldr (fun q acc =>
        match acc with
        | .error e => .error e
        | .ok l =>
          if plate.name == q.name then
            match q.kind with
            | .plain => .error .assertion
            | .anc j => .ok ((if j < i then plate else q) :: l)
          else .ok (q :: l)) (.ok [])
  else .ok (plate :: news)

/-- wrappers.py:293-304. -/
def mergePlates : List (Plate α) → List (Plate α) → Except Err (List (Plate α))
  | [], news => .ok news
  | p :: rest, news =>
    match mergePlate p news with
    | .error e => .error e
    | .ok n => mergePlates rest n

mutual
/-- `_prepare_outputs_det` (wrappers.py:275-338) without the names given to the tensors and without
user-registered wrappers.  A dict is iterated over its keys, which are strings. -/
def Val.wrapOut (plates : List (Plate α)) (unflatten : Bool) : Val α → Except Err (Val α)
  | .none => .ok .none
  | .st o s =>
    if s then .error .runtime
    else
      match mergePlates plates.reverse o.plates with
      | .error e => .error e
      | .ok ps =>
        match STen.mk' o.ten ps with
        | .error e => .error e
        | .ok t => .ok (.st t false)
  | .torch t =>
    match (if unflatten then
        t.reshape (((plates.filter (fun p => decide (1 < p.n))).map Plate.n) ++ t.shape.drop 1)
      else .ok t) with
    | .error e => .error e
    | .ok t' =>
      match STen.mk' t' plates with
      | .error e => .error e
      | .ok r => .ok (.st r false)
  | .tup xs =>
    match wrapOutList plates unflatten xs with
    | .error e => .error e
    | .ok rs => .ok (.tup rs)
  | .lst xs =>
    match wrapOutList plates unflatten xs with
    | .error e => .error e
    | .ok rs => .ok (.lst rs)
  | .iter xs =>
    match wrapOutList plates unflatten xs with
    | .error e => .error e
    | .ok rs => .ok (.lst rs)
  | .dict [] _ => .ok (.lst [])
  | .dict (_ :: _) _ => .error .notImplemented
  | .distr k r ks ps =>
    match k with
    | .unsupported => .error .notImplemented
    | .relaxed => .error .value
    | .discrete =>
      match wrapOutList plates unflatten ps with
      | .error e => .error e
      | .ok rs => .ok (.distr k r ks rs)
  | .other _ => .error .notImplemented
/-- The loop over the elements of an iterable output (wrappers.py:317-326). -/
def wrapOutList (plates : List (Plate α)) (unflatten : Bool) :
    List (Val α) → Except Err (List (Val α))
  | [] => .ok []
  | v :: vs =>
    match Val.wrapOut plates unflatten v with
    | .error e => .error e
    | .ok r =>
      match wrapOutList plates unflatten vs with
      | .error e => .error e
      | .ok rs => .ok (r :: rs)
end

/-- A Python function as seen by the wrapper.  `fn` of wrappers.py:341, 375. -/
abbrev Fn (α : Type _) := Args α → Except Err (Val α)

/-- `_handle_deterministic` (wrappers.py:341-390) as a function of the context flags
`_context_stochastic` and `_ignore_wrap`. -/
def handleDet (hook : UnwrapHook α) (ctxStoch ignoreWrap : Bool) (cfg : WCfg) (fn : Fn α) (a : Args α) :
    Except Err (Val α) :=
  if ctxStoch then .error .notImplemented
  else
    match prepareArgs hook cfg a with
    | .error e => .error e
    | .ok p =>
      if p.parents.isEmpty then
        -- the caller's arguments, with `dim` set, after the collection traversal
        match applyDim (p.plates.filter (fun q => decide (1 < q.n))) cfg.dim a.kw with
        | .error e => .error e
        | .ok kw => fn ⟨consumedList a.pos, kw.map (fun e => (e.1, e.2.consumed))⟩
      else
        match fn p.args with
        | .error e => .error e
        | .ok out =>
          if ignoreWrap then .ok out
          else
            let plates := p.plates.filter (fun q => !decide (q.name ∈ cfg.reducePlates))
            out.wrapOut plates cfg.flattenPlates

end align

/-! Torch functions as they are passed to the wrapper. -/

/-- The torch tensor behind a Python value, if it is one.
What the torch functions called at wrappers.py:376 accept. -/
def Val.asTorch : Val α → Option (Ten α)
  | .torch t => some t
  | _ => Option.none

/-- A torch element-wise function of its positional arguments, all of which must be torch tensors.
Called at wrappers.py:376. -/
def elementwiseFn (f : List α → α) : Fn α := fun a =>
  match a.pos.mapM Val.asTorch with
  | some ts =>
    match Ten.elementwise f ts with
    | .ok r => .ok (.torch r)
    | .error e => .error e
  | .none => .error .type

/-- A storch or a torch tensor as an argument.  The arguments of wrappers.py:45-68. -/
inductive Operand (α : Type _)
  | st (t : STen α) (stochastic : Bool)
  | torch (t : Ten α)

/-- The operand as a Python value.  The arguments of wrappers.py:45-68. -/
def Operand.val : Operand α → Val α
  | .st t s => .st t s
  | .torch t => .torch t

/-- The storch tensors among the operands.  wrappers.py:48-49. -/
def stens : List (Operand α) → List (STen α)
  | [] => []
  | .st t _ :: ops => t :: stens ops
  | .torch _ :: ops => stens ops

/-- A call `f(op1, op2, …)`.  wrappers.py:341-390. -/
def opArgs (ops : List (Operand α)) : Args α := ⟨ops.map Operand.val, []⟩

end Storch
