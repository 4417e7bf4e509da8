import Verif.Model.Torch
import Mathlib.Order.WithBot
import Mathlib.Algebra.Field.Defs

/-!
# Sequence decoding (storch/sampling/seq.py:145-640, storch/sampling/swor.py, storch/sampling/importance_sampling.py:70-120)

The decoders act on every row of the other plates separately; the model is that of one such row, so that the tensors
`plates x k`, `plates x k x events` are lists with one entry per sample.  Simplifications: no other plates (they are in
`Verif.Model.DecodePlates`, see C83); a sample is given by its token, the index into the enumerated support (`support.gather`,
seq.py:609-610, is left out; a token equals
the value that `samples.eq(eos)` compares); autograd links are left out.  Random numbers and the choice of `torch.topk`
among equal values are arguments.
-/

namespace Storch.Decode

variable {α : Type _}

/-- A distribution to decode (seq.py:381-397): the size of its domain `|D_yv|`, the shape of its independent
dimensions (`events`), whether its parameters carry the plate of the decoder with more than one sample
(`is_conditional_sample`, seq.py:440-447), and the log-probability of a token given the sample of the step before
(row 0 if it is not conditional), for the event cell with the given row-major position. -/
structure Dist (α : Type _) where
  dom : Nat
  events : List Nat
  cond : Bool
  logProb : Nat → Nat → Nat → α

/-- Number of event cells: the length of `itertools.product(*ranges)` (seq.py:584). -/
def Dist.cells (d : Dist α) : Nat := Ten.numel d.events

/-- The row of the log-probabilities that belongs to a sample of the step before.  swor.py:68-87. -/
def Dist.row (d : Dist α) (parent : Nat) : Nat := if d.cond then parent else 0

/-- The mask `finished_samples` (seq.py:201-202): one entry per sample, or a tensor that has event dimensions too. -/
inductive Mask
  | rows (m : List Bool)
  | cells

/-- An ancestral plate (seq.py:16-42) as far as decoders read it. -/
structure APlate (α : Type _) where
  n : Nat
  varIdx : Nat
  logProbs : List α
  perturb : List (WithBot α)
  weight : Option (List α)

/-- The attributes of a decoder that change (seq.py:160-173, swor.py:29-32, importance_sampling.py:83-85).  `plates`
is `new_plate` followed by its chain of parent plates, newest first; `seq` holds for each variable the tokens of
every sample. -/
structure St (α : Type _) where
  joint : Option (List α)
  parentIdx : Option (List Nat)
  varIdx : Nat
  plates : List (APlate α)
  finished : Option Mask
  seq : List (List (List Nat))
  perturbed : Option (List (WithBot α))
  proposals : List (Dist α)

/-- `tensor.gather(0, index)` on a list of rows.  Used at swor.py:131-146, seq.py:610. -/
def gatherL {β : Type _} (l : List β) : List Nat → Except Err (List β)
  | [] => .ok []
  | i :: is =>
    match l[i]? with
    | none => .error .torch
    | some a =>
      match gatherL l is with
      | .error e => .error e
      | .ok r => .ok (a :: r)

/-- `sampled_support_indices[0:len(vals), ev] = vals` (swor.py:128-129, 150-151). -/
def setCells (ev : Nat) : List Nat → List (List Nat) → Except Err (List (List Nat))
  | [], rows => .ok rows
  | _ :: _, [] => .error .torch
  | v :: vs, r :: rs =>
    match setCells ev vs rs with
    | .error e => .error e
    | .ok rs' => .ok (r.set ev v :: rs')

/-- The variables of the loop in `IterDecoding.decode` (seq.py:556-602). -/
structure Beam (α : Type _) where
  sampled : List (List Nat)
  joint : Option (List α)
  parentIdx : Option (List Nat)
  amt : Nat

/-- `all_joint_log_probs` (swor.py:61-87) as rows of length `|D_yv|`; a single row for the first sample. -/
def allJoint [Add α] (d : Dist α) (ev : Nat) (b : Beam α) : Except Err (List (List α)) :=
  match b.joint with
  | none => .ok [(List.range d.dom).map (d.logProb 0 ev)]
  | some j =>
    if d.cond then
      match b.parentIdx with
      | none => .error .type
      | some pi =>
        if j.length = (pi.take b.amt).length then
          .ok (List.zipWith (fun jl p => (List.range d.dom).map (fun t => jl + d.logProb p ev t)) j (pi.take b.amt))
        else .error .torch
    else .ok (j.map (fun jl => (List.range d.dom).map (fun t => jl + d.logProb 0 ev t)))

/-- swor.py:92-108: finished samples continue with the end-of-sequence token only. -/
def applyFinished (eos : Option Nat) (fin : Option Mask) (perturbed : Option (List (WithBot α))) (dom : Nat)
    (G : List (List (WithBot α))) : Except Err (List (List (WithBot α))) :=
  match fin with
  | none => .ok G
  | some .cells => .error .index
  | some (.rows m) =>
    match eos, perturbed with
    | some e, some ps =>
      if m.length ≠ ps.length then .error .index
      else if dom ≤ e then .error .index
      else if m.length ≠ G.length then .error .index
      else .ok (List.zipWith (fun (fp : Bool × WithBot α) row =>
        if fp.1 then (List.range dom).map (fun t => if t = e then fp.2 else ⊥) else row) (m.zip ps) G)
    | _, _ => .error .attribute

/-- `SampleWithoutReplacement.decode_step` with `select_samples` (swor.py:34-173).  `noise r t` is the value of
`cond_gumbel_sample` (swor.py:90; modelled in `Verif.Model.Gumbel`) for sample `r` and token `t`; `topk m l j` are the
indices chosen by `select_samples` (swor.py:154-173; overridden in mapo.py:55-81) among the perturbed log-probabilities `l` and the joint
log-probabilities `j`: those of `torch.topk`. -/
def decodeStep [Add α] (k : Nat) (eos : Option Nat) (topk : Nat → List (WithBot α) → List α → List Nat)
    (fin : Option Mask) (d : Dist α) (ev : Nat) (noise : Nat → Nat → WithBot α) (b : Beam α)
    (perturbed : Option (List (WithBot α))) : Except Err (Beam α × List (WithBot α)) :=
  match allJoint d ev b with
  | .error e => .error e
  | .ok all =>
    match applyFinished eos fin perturbed d.dom
        ((List.range all.length).map (fun r => (List.range d.dom).map (noise r))) with
    | .error e => .error e
    | .ok G =>
      let arg := topk (min k G.flatten.length) G.flatten all.flatten
      match gatherL G.flatten arg, gatherL all.flatten arg with
      | .ok perturbed', .ok joint' =>
        match b.joint with
        | none =>
          match setCells ev arg b.sampled with
          | .error e => .error e
          | .ok sampled => .ok (⟨sampled, some joint', b.parentIdx, arg.length⟩, perturbed')
        | some _ =>
          let chosen := arg.map (· / d.dom)
          match gatherL b.sampled chosen with
          | .error e => .error e
          | .ok rows =>
            match setCells ev (arg.map (· % d.dom)) rows with
            | .error e => .error e
            | .ok sampled =>
              match b.parentIdx with
              | none => .ok (⟨sampled, some joint', none, arg.length⟩, perturbed')
              | some pi =>
                match gatherL pi chosen with
                | .error e => .error e
                | .ok pi' => .ok (⟨sampled, some joint', some pi', arg.length⟩, perturbed')
      | .error e, _ => .error e
      | _, .error e => .error e

/-- The loop of seq.py:584-602 over the event cells; also returns `perturbed_log_probs`, which is an attribute and
keeps its value when a later step raises. -/
def decodeLoop [Add α] (k : Nat) (eos : Option Nat) (topk : Nat → List (WithBot α) → List α → List Nat)
    (fin : Option Mask) (d : Dist α) (noise : Nat → Nat → Nat → WithBot α) :
    List Nat → Beam α → Option (List (WithBot α)) → Option (List (WithBot α)) × Except Err (Beam α)
  | [], b, p => (p, .ok b)
  | ev :: evs, b, p =>
    match decodeStep k eos topk fin d ev (noise ev) b p with
    | .error e => (p, .error e)
    | .ok (b', p') => decodeLoop k eos topk fin d noise evs b' (some p')

/-- seq.py:604-608: `sampled_support_indices[(...,) + (slice(amt_samples),)]` cuts the last dimension, which is the
sample dimension only if there are no event dimensions. -/
def cutLast (events : List Nat) (amt : Nat) (rows : List (List Nat)) : List (List Nat) :=
  match events.getLast? with
  | none => rows.take amt
  | some last => rows.map (fun row => (row.zipIdx.filter (fun e => decide (e.2 % last < amt))).map Prod.fst)

/-- The variables before the loop (seq.py:556-581). -/
def startBeam (k : Nat) (d : Dist α) (joint : Option (List α)) : Beam α :=
  { sampled := List.replicate k (List.replicate d.cells 0)
    joint := joint
    parentIdx := joint.map (fun j => List.range j.length ++ List.replicate (k - j.length) 0)
    amt := (joint.map List.length).getD 0 }

/-- `IterDecoding.decode` (seq.py:381-611) with the steps of sampling without replacement: the samples, the joint
log-probabilities and the parent indices, next to the new `perturbed_log_probs`. -/
def decode [Add α] (k : Nat) (eos : Option Nat) (topk : Nat → List (WithBot α) → List α → List Nat) (s : St α) (d : Dist α)
    (noise : Nat → Nat → Nat → WithBot α) :
    Option (List (WithBot α)) × Except Err (List (List Nat) × Option (List α) × Option (List Nat)) :=
  if d.cond && s.plates.isEmpty then (s.perturbed, .error .attribute)
  else if k < ((s.joint.map List.length).getD 0) then (s.perturbed, .error .torch)
  else
    match decodeLoop k eos topk s.finished d noise (List.range d.cells) (startBeam k d s.joint) s.perturbed with
    | (p, .error e) => (p, .error e)
    | (p, .ok b) =>
      (p, .ok (if b.amt < k then cutLast d.events b.amt b.sampled else b.sampled, b.joint, b.parentIdx))

/-- The assertion of `AncestralPlate.__init__` on the parent plate (seq.py:29-31). -/
def St.parentOk (s : St α) (n : Nat) : Bool :=
  match s.plates with
  | [] => s.varIdx == 0
  | p :: _ => decide (p.n ≤ n) && decide (p.varIdx < s.varIdx)

/-- A tensor that is given the new plate has another size than the plate (`storch.Tensor.__init__`, a plate of size one
has no dimension).  Checked at tensor.py:206-221 for the tensors of seq.py:237-247. -/
def sizeBad {β : Type _} (n : Nat) : Option (List β) → Bool
  | none => false
  | some l => decide (n ≠ 1) && decide (l.length ≠ n)

/-- `AncestralPlate.__init__` and `create_plate` (seq.py:28-42, 300-310, swor.py:176-183): the assertion on the parent
plate, and the checks of the tensors `log_probs` and `perturb_log_probs` that carry the new plate. -/
def createPlate (s : St α) (n : Nat) (joint : Option (List α)) (perturbed : Option (List (WithBot α))) :
    Except Err (APlate α) :=
  if !s.parentOk n then .error .assertion
  else if sizeBad n joint then .error .value
  else if sizeBad n perturbed then .error .value
  else .ok ⟨n, s.varIdx, joint.getD [], perturbed.getD [], none⟩

/-- swor.py:176-183 reads `self.perturbed_log_probs._tensor`, which fails before any event was decoded. -/
def createPlateSwor (s : St α) (n : Nat) (joint : Option (List α)) (perturbed : Option (List (WithBot α))) :
    Except Err (APlate α) :=
  match createPlate s n joint perturbed, perturbed with
  | .error e, _ => .error e
  | .ok _, none => .error .attribute
  | .ok p, some _ => .ok p

/-- seq.py:235-236: the tensors of the sequence so far are re-indexed by the new plate (`on_unwrap_tensor`, modelled in
`Verif.Model.Ancestral`; they all belong to the step before).  A new plate of size one has no dimension that the
gather could use. -/
def reindexSeq (n : Nat) (parentIdx : Option (List Nat)) : List (List (List Nat)) → Except Err (List (List (List Nat)))
  | [] => .ok []
  | t :: ts =>
    match parentIdx with
    | none => .ok (t :: ts)
    | some pi =>
      if n = 1 then .error .unbound
      else
        match gatherL t pi with
        | .error e => .error e
        | .ok t' =>
          match reindexSeq n parentIdx ts with
          | .error e => .error e
          | .ok ts' => .ok (t' :: ts')

/-- `if self.eos: self.finished_samples = samples.eq(self.eos)` (seq.py:201-202). -/
def finishedOf (eos : Option Nat) (events : List Nat) (samples : List (List Nat)) (old : Option Mask) : Option Mask :=
  match eos with
  | none => old
  | some 0 => old
  | some e => if events.isEmpty then some (.rows (samples.map (fun row => row == [e]))) else some .cells

/-- `SequenceDecoding.sample` (seq.py:175-269) for sampling without replacement; the attributes as they are when it
returns or raises. -/
def sampleSwor [Add α] (k : Nat) (eos : Option Nat) (topk : Nat → List (WithBot α) → List α → List Nat) (d : Dist α)
    (noise : Nat → Nat → Nat → WithBot α) (s : St α) : St α × Except Err (List (List Nat)) :=
  match decode k eos topk s d noise with
  | (p, .error e) => ({ s with perturbed := p }, .error e)
  | (p, .ok (samples, joint, pi)) =>
    let s1 := { s with
      perturbed := p, joint := joint, parentIdx := pi,
      finished := finishedOf eos d.events samples s.finished }
    match createPlateSwor s1 samples.length joint p with
    | .error e => (s1, .error e)
    | .ok plate =>
      let s2 := { s1 with plates := plate :: s.plates }
      match reindexSeq samples.length pi s.seq with
      | .error e => (s2, .error e)
      | .ok seq => ({ s2 with seq := seq ++ [samples], varIdx := s.varIdx + 1 }, .ok samples)

/-- `if self.finished_samples:` (seq.py:257, 365): torch refuses the truth value of a tensor unless it has one element. -/
def Mask.truth : Option Mask → Except Err Bool
  | none => .ok false
  | some (.rows [b]) => .ok b
  | some _ => .error .runtime

/-- `sample[self.finished_samples] = self.eos` (seq.py:365-366). -/
def forceEos (eos : Option Nat) (finished : Bool) (draw : List Nat) : List Nat :=
  match finished, eos with
  | true, some e => [e]
  | _, _ => draw

/-- The number of samples drawn (seq.py:351-363). -/
def St.rowsMC (s : St α) (k : Nat) (cond : Bool) : Nat :=
  match cond, s.plates with
  | true, p :: _ => p.n
  | _, _ => k

/-- `MCDecoder.decode` and `SequenceDecoding.sample` (seq.py:341-368, 175-269) for variables without event dimensions.
`draw r` is the token sampled for row `r`: there is one row per sample of the plate if the parameters of the distribution
that is sampled from carry it (`cond`; for more than one sample, see `Dist.cond`), and `k` rows otherwise.  The decoder computes no joint
log-probabilities, so that they are first set to `None` (seq.py:193-197) and then to those of the new tokens (seq.py:250-255).
A single finished sample leads to `1 - finished_samples` (seq.py:261), which torch refuses for booleans. -/
def sampleMC (k : Nat) (eos : Option Nat) (d : Dist α) (cond : Bool) (draw : Nat → Nat) (s : St α) : St α × Except Err (List Nat) :=
  match Mask.truth s.finished with
  | .error e => (s, .error e)
  | .ok fin =>
    let draw' := forceEos eos fin ((List.range (s.rowsMC k cond)).map draw)
    let rows := draw'.map (fun t => [t])
    let s1 := { s with
      joint := none, parentIdx := none,
      finished := finishedOf eos d.events rows s.finished }
    match createPlate s1 rows.length none none with
    | .error e => (s1, .error e)
    | .ok plate =>
      let joint := draw'.zipIdx.map (fun e => d.logProb (d.row e.2) 0 e.1)
      let s2 := { s1 with plates := plate :: s.plates, joint := some joint }
      match Mask.truth s1.finished with
      | .error e => (s2, .error e)
      | .ok true => (s2, .error .runtime)
      | .ok false => ({ s2 with
        plates := { plate with logProbs := joint } :: s.plates
        seq := s.seq ++ [rows], varIdx := s.varIdx + 1 }, .ok draw')

/-- `ImportanceSampleDecoder.decode` (importance_sampling.py:87-97): the proposal is recorded, then the sample is drawn
from it; the log-probabilities kept are those of the distribution itself. -/
def sampleIS (k : Nat) (eos : Option Nat) (d proposal : Dist α) (draw : Nat → Nat) (s : St α) :
    St α × Except Err (List Nat) :=
  sampleMC k eos d (d.cond || proposal.cond) draw { s with proposals := s.proposals ++ [proposal] }

/-- The weights of the samples of the parent plate times the number of samples (importance_sampling.py:116-118), for row
`r`.  A parent plate without weight cannot be multiplied. -/
def parentWeight [Field α] (n : Nat) : List (APlate α) → Except Err (Nat → α)
  | [] => .ok (fun _ => 1)
  | p :: _ =>
    match p.weight with
    | none => .error .type
    | some w => .ok (fun r => w.getD r 0 * n)

/-- The weight of cell `c` of the event dimensions of sample `r` with token `t` there (importance_sampling.py:114-120):
`log_prob` is not summed over the event dimensions, so that every cell has a weight of its own.  `pw` is `parent_weight`. -/
def weightISCell [Field α] (ex : α → α) (eps pw : α) (n : Nat) (d q : Dist α) (r c t : Nat) : α :=
  pw * ex (d.logProb (d.row r) c t) / (n * (ex (q.logProb (q.row r) c t) + eps))

/-- `ImportanceSampleDecoder.weighting_function` (importance_sampling.py:109-120), for a variable without event
dimensions, after the tokens `draw` were sampled; `ex` is the exponential function. -/
def weightIS [Field α] (ex : α → α) (eps : α) (d : Dist α) (draw : List Nat) (s : St α) : Except Err (List α) :=
  match s.plates with
  | [] => .error .attribute
  | p :: ps =>
    match s.proposals[p.varIdx]? with
    | none => .error .index
    | some q =>
      match parentWeight p.n ps with
      | .error e => .error e
      | .ok w => .ok (draw.zipIdx.map (fun e => weightISCell ex eps (w e.2) p.n d q e.2 0 e.1))

/-- `Method.sample` (method.py:93-136) with an `ImportanceSampleDecoder`: a distribution whose parameters carry the plate
of the decoder is refused (method.py:124-126, sampling/method.py:102-107); the weights are put on the new plate. -/
def methodSampleIS [Field α] (ex : α → α) (k : Nat) (eos : Option Nat) (eps : α) (d proposal : Dist α)
    (draw : Nat → Nat) (s : St α) : Except Err (St α) :=
  if d.cond then .error .value
  else
    match sampleIS k eos d proposal draw s with
    | (_, .error e) => .error e
    | (s', .ok tokens) =>
      match weightIS ex eps d tokens s' with
      | .error e => .error e
      | .ok w =>
        match s'.plates with
        | [] => .error .attribute
        | p :: ps => .ok { s' with plates := { p with weight := some w } :: ps }

/-- The three decoders with their constructor arguments.
The classes of swor.py:11-27, seq.py:341-368 and importance_sampling.py:70-81. -/
inductive Cls (α : Type _)
  | mc (k : Nat) (eos : Option Nat)
  | importance (k : Nat) (eos : Option Nat) (epsilon : α)
  | swor (k : Nat) (eos : Option Nat) (biased : Bool)

/-- A decoder object: class and constructor arguments, `plate_first`, and the attributes that change.
seq.py:145-173. -/
structure Decoder (α : Type _) where
  cls : Cls α
  plateFirst : Bool
  st : St α

/-- `reset()` (seq.py:160-173) with the overrides of swor.py:29-32 and importance_sampling.py:83-85.  An attribute that a
class does not have stays as it is. -/
def Decoder.reset (x : Decoder α) : Decoder α :=
  let base : St α := { x.st with
    joint := none, parentIdx := none, varIdx := 0, plates := [], finished := none, seq := [] }
  match x.cls with
  | .mc _ _ => { x with st := base }
  | .importance _ _ _ => { x with st := { base with proposals := [] } }
  | .swor _ _ _ => { x with st := { base with perturbed := none } }

/-- An object without attributes: the ones a class does not have are never set.
No Python counterpart: the object before `SamplingMethod.__init__` (sampling/method.py:12-15) calls `reset`. -/
def blank : St α := ⟨none, none, 0, [], none, [], none, []⟩

/-- The constructors (seq.py:153-158, 376-378; swor.py:21-27; importance_sampling.py:72-81): sampling without replacement
needs at least two samples. -/
def construct (c : Cls α) : Except Err (Decoder α) :=
  match c with
  | .mc _ _ => .ok (Decoder.reset ⟨c, true, blank⟩)
  | .importance _ _ _ => .ok (Decoder.reset ⟨c, true, blank⟩)
  | .swor k _ _ =>
    if k < 2 then .error .value
    else .ok { Decoder.reset ⟨c, true, blank⟩ with plateFirst := false }

/-- A call on a decoder: `sample` with the distribution and the random choices, or `reset`.
`sample` is seq.py:175-269, `reset` is seq.py:160-173. -/
inductive Call (α : Type _)
  | sample (d proposal : Dist α) (draw : Nat → Nat) (noise : Nat → Nat → Nat → WithBot α)
  | reset

/-- The effect of a call on the decoder, whether it returns or raises.  seq.py:160-269. -/
def Decoder.step [Add α] (topk : Nat → List (WithBot α) → List α → List Nat) (x : Decoder α) : Call α → Decoder α
  | .reset => x.reset
  | .sample d q draw noise =>
    match x.cls with
    | .mc k eos => { x with st := (sampleMC k eos d d.cond draw x.st).1 }
    | .importance k eos _ => { x with st := (sampleIS k eos d q draw x.st).1 }
    | .swor k eos _ => { x with st := (sampleSwor k eos topk d noise x.st).1 }

/-- The tokens of sample `r` so far, oldest first.  An observer of `self.seq` (seq.py:173, 236). -/
def St.sequence (s : St α) (r : Nat) : List Nat := s.seq.flatMap (fun t => t.getD r [])

/-- The number of sequences so far: that of the newest variable; before the first variable there is the empty one.
An observer of `self.seq` (seq.py:173, 236). -/
def St.width (s : St α) : Nat := (s.seq.getLast?.map List.length).getD 1

/-- The sequences decoded so far.  An observer of `self.seq` (seq.py:173, 236). -/
def St.sequences (s : St α) : List (List Nat) := (List.range s.width).map s.sequence

/-- A variable of a program that is decoded: size of its domain, shape of its independent dimensions, whether its
parameters are computed from the sequence so far, and its log-probabilities given the sequence so far.
No Python counterpart: a user program that calls seq.py:175 for one variable after the other. -/
structure Var (α : Type _) where
  dom : Nat
  events : List Nat
  dep : Bool
  logProb : List Nat → Nat → Nat → α

/-- The distribution that a program hands to the decoder: its parameters have one row per sequence so far if the
variable depends on them.  They carry the decoder's plate as a dimension only if that has more than one sample.
As read by seq.py:381-397, 440-447. -/
def Var.dist (v : Var α) (s : St α) : Dist α :=
  { dom := v.dom
    events := v.events
    cond := v.dep && decide (1 < s.width) && !s.seq.isEmpty
    logProb := fun p => if v.dep then v.logProb (s.sequence p) else v.logProb [] }

/-- Several variables decoded one after the other without replacement; the first exception stops.
No Python counterpart: a user program that calls seq.py:175 for one variable after the other. -/
def runSwor [Add α] (k : Nat) (eos : Option Nat) (topk : Nat → List (WithBot α) → List α → List Nat) :
    List (Var α × (Nat → Nat → Nat → WithBot α)) → St α → Except Err (St α)
  | [], s => .ok s
  | (v, noise) :: vs, s =>
    match sampleSwor k eos topk (v.dist s) noise s with
    | (_, .error e) => .error e
    | (s', .ok _) => runSwor k eos topk vs s'

/-- Several variables sampled one after the other through an importance-sampling decoder without end-of-sequence token;
each comes with the proposal that the callback returns and the tokens drawn from it.
No Python counterpart: a user program that calls seq.py:175 for one variable after the other. -/
def runIS [Field α] (ex : α → α) (k : Nat) (eps : α) :
    List (Var α × Var α × (Nat → Nat)) → St α → Except Err (St α)
  | [], s => .ok s
  | (v, q, draw) :: vs, s =>
    match methodSampleIS ex k none eps (v.dist s) (q.dist s) draw s with
    | .error e => .error e
    | .ok s' => runIS ex k eps vs s'

end Storch.Decode
