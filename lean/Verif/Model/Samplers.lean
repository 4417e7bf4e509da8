import Verif.Model.Base

/-!
# Sampling methods and the estimators that take them over

An estimator (`storch.method.Method`) changes the sampling method it is given: it sets the attributes `mc_sample` and
`mc_weighting_function` of that object to its own functions (storch/sampling/method.py:72-100).  The model keeps the sampling
methods in a list, as objects that several estimators can refer to, and says for every sample which function is called and how
the samples are weighted.  The functions themselves are in Model/Sampling.lean, Model/Relax.lean, Model/Arm.lean and
Model/Gumbel.lean.
-/

namespace Storch.Samplers

/-- The sampling functions of the estimators: `Reparameterization.reparam_sample` (method/method.py:335-347),
`GumbelSoftmax.sample_gumbel` (method/method.py:377-386), `GumbelEntmax.sample_gumbel_entmax` (method/method.py:444-459),
`ARM.sample_arm` (method/arm.py:41-54), `DisARM.sample_disarm` (method/arm.py:115-129), `RELAX.sample_gumbel`
(method/relax.py:216-242). -/
inductive Fn
  | reparam | gumbel | entmax | arm | disarm | relax
  deriving DecidableEq, Repr

/-- The weighting functions of the estimators: `ARM.weighting_function` (method/arm.py:56-63), `RELAX.plate_weighting`
(method/relax.py:244-255). -/
inductive WFn
  | arm | relax
  deriving DecidableEq, Repr

/-- The classes of sampling methods, with the number of samples: `MonteCarlo` (sampling/method.py:110-119), `ImportanceSampling`
(sampling/importance_sampling.py:27-34), `Enumerate` (sampling/expect.py:11-14), `MCDecoder` (sampling/seq.py:341),
`ImportanceSampleDecoder` (sampling/importance_sampling.py:70-81), `SampleWithoutReplacement` with its subclasses
(sampling/swor.py:18-32). -/
inductive Cls
  | monteCarlo (n : Nat) | importance (n : Nat) | enumerate | mcDecoder (k : Nat) | isDecoder (k : Nat) | swor (k : Nat)
  deriving DecidableEq, Repr

/-- A sampling method: its name, its class, and the attributes `mc_sample` and `mc_weighting_function` where they are set on the
object (sampling/method.py:83, 99); then they hide the methods of the class.  The estimators are given by numbers. -/
structure Sampler where
  plate : String
  cls : Cls
  mcSample : Option (Nat × Fn)
  mcWeight : Option (Nat × WFn)
  deriving DecidableEq, Repr

/-- The names of baselines that `ScoreFunction` takes (method/method.py:539-552). -/
inductive Baseline
  | none | movingAverage | batchAverage | invalid
  deriving DecidableEq, Repr

/-- What `Infer` asks of the class of distributions (method/method.py:256-263): `has_rsample`, `OneHotCategorical` or `Bernoulli`,
others. -/
inductive DType
  | rsample | discrete | other
  deriving DecidableEq, Repr

/-- The classes of estimators with the arguments that matter here.  `LAX` is constructed like `Reparameterization`
(method/relax.py:69), `GumbelSparseMax` like `GumbelEntmax` (method/method.py:497-506), `REBAR` like `RELAX`.  The argument of
`relax` says whether a control variate or its input dimension is given (method/relax.py:194-199), the one of `infer` what
`distribution_type` is (method/method.py:256-271), the one of `wor` is k for the estimators that make their own sampling method
without replacement (method/multi_sample_reinforce.py:32-38, method/rao_blackwell.py:13-15, method/unordered.py:51-62, 83-98). -/
inductive Kind
  | score (b : Baseline) | reparam | gumbel | entmax | arm | disarm | relax (control : Bool) | infer (t : DType) | expect
  | wor (k : Nat)
  deriving DecidableEq, Repr

/-- An estimator that was constructed: its number, class, the number of its sampling method, and for `Infer` the number of the
estimator it has made for sampling (method/method.py:257-272). -/
structure Method where
  id : Nat
  kind : Kind
  sampler : Nat
  inner : Nat
  deriving DecidableEq, Repr

/-- All sampling methods, and the number of estimators that were constructed, including those whose constructor raised. -/
structure World where
  samplers : List Sampler
  made : Nat
  deriving DecidableEq, Repr

/-- `sampling_method.set_mc_sample(f)` (sampling/method.py:72-84).  Sampling without replacement refuses (sampling/swor.py:217-225). -/
def setSample (i : Nat) (f : Nat × Fn) (w : World) : World × Except Err Unit :=
  match w.samplers[i]? with
  | none => (w, .error .name)
  | some s =>
    match s.cls with
    | .swor _ => (w, .error .runtime)
    | _ => ({ w with samplers := w.samplers.set i { s with mcSample := some f } }, .ok ())

/-- `sampling_method.set_mc_weighting_function(f)` (sampling/method.py:86-100). -/
def setWeight (i : Nat) (f : Nat × WFn) (w : World) : World × Except Err Unit :=
  match w.samplers[i]? with
  | none => (w, .error .name)
  | some s => ({ w with samplers := w.samplers.set i { s with mcWeight := some f } }, .ok ())

/-- `Method.__init__` (method/method.py:38-47): the names must match. -/
def baseInit (plate : String) (i : Nat) (w : World) : Except Err Unit :=
  match w.samplers[i]? with
  | none => .error .name
  | some s => if s.plate = plate then .ok () else .error .value

/-- `sampling_method.n_samples`, which only `MonteCarlo` has (method/method.py:544, sampling/method.py:119). -/
def nSamples (i : Nat) (w : World) : Except Err Nat :=
  match w.samplers[i]? with
  | some ⟨_, .monteCarlo n, _, _⟩ => .ok n
  | _ => .error .attribute

/-- A new sampling method. -/
def newSampler (plate : String) (cls : Cls) (w : World) : World × Nat :=
  ({ w with samplers := w.samplers ++ [⟨plate, cls, none, none⟩] }, w.samplers.length)

/-- `if not sampling_method: sampling_method = MonteCarlo(plate_name, n_samples)` (for example method/method.py:321-322). -/
def orDefault (plate : String) (arg : Option Nat) (n : Nat) (w : World) : World × Nat :=
  match arg with
  | some i => (w, i)
  | none => newSampler plate (.monteCarlo n) w

/-- The number of the next estimator. -/
def newId (w : World) : World × Nat := ({ w with made := w.made + 1 }, w.made)

/-- `ScoreFunction.__init__` (method/method.py:527-552). -/
def initScore (plate : String) (arg : Option Nat) (n : Nat) (b : Baseline) (w : World) : World × Except Err Method :=
  let (w, o) := newId w
  let (w, i) := orDefault plate arg n w
  match baseInit plate i w with
  | .error e => (w, .error e)
  | .ok () =>
    let m : Method := ⟨o, .score b, i, o⟩
    match b with
    | .none => (w, .ok m)
    | .movingAverage => (w, .ok m)
    | .batchAverage =>
      match nSamples i w with
      | .error e => (w, .error e)
      | .ok n => if n ≤ 1 then (w, .error .value) else (w, .ok m)
    | .invalid => (w, .error .value)

/-- `Reparameterization.__init__`, `GumbelSoftmax.__init__`, `GumbelEntmax.__init__`, `DisARM.__init__` (method/method.py:315-323,
357-375, 412-442, method/arm.py:101-113): the function is set before the names are compared. -/
def initFn (kind : Kind) (f : Fn) (plate : String) (arg : Option Nat) (n : Nat) (w : World) : World × Except Err Method :=
  let (w, o) := newId w
  let (w, i) := orDefault plate arg n w
  match setSample i (o, f) w with
  | (w, .error e) => (w, .error e)
  | (w, .ok ()) =>
    match baseInit plate i w with
    | .error e => (w, .error e)
    | .ok () => (w, .ok ⟨o, kind, i, o⟩)

/-- `ARM.__init__`, `RELAX.__init__` (method/arm.py:29-39, method/relax.py:173-214). -/
def initWeighted (kind : Kind) (f : Fn) (g : WFn) (plate : String) (arg : Option Nat) (n : Nat) (w : World) :
    World × Except Err Method :=
  let (w, o) := newId w
  let (w, i) := orDefault plate arg n w
  match setSample i (o, f) w with
  | (w, .error e) => (w, .error e)
  | (w, .ok ()) =>
    match setWeight i (o, g) w with
    | (w, .error e) => (w, .error e)
    | (w, .ok ()) =>
      match baseInit plate i w with
      | .error e => (w, .error e)
      | .ok () => if kind = .relax false then (w, .error .value) else (w, .ok ⟨o, kind, i, o⟩)

/-- An estimator that makes its own sampling method (method/method.py:578-580, method/multi_sample_reinforce.py:32-38). -/
def initOwn (kind : Kind) (cls : Cls) (plate : String) (w : World) : World × Except Err Method :=
  let (w, o) := newId w
  let (w, i) := newSampler plate cls w
  (w, .ok ⟨o, kind, i, o⟩)

/-- `Infer.__init__` (method/method.py:243-274): an estimator for sampling, then one for the score function. -/
def initInfer (t : DType) (plate : String) (arg : Option Nat) (n : Nat) (w : World) : World × Except Err Method :=
  let (w, o) := newId w
  let r := match t with
    | .rsample => initFn .reparam .reparam plate arg n w
    | .discrete => initFn .gumbel .gumbel plate arg n w
    | .other => initScore plate arg n (if n = 1 then .movingAverage else .batchAverage) w
  match r with
  | (w, .error e) => (w, .error e)
  | (w, .ok m) =>
    match initScore plate arg n .none w with
    | (w, .error e) => (w, .error e)
    | (w, .ok _) => (w, .ok ⟨o, .infer t, m.sampler, m.id⟩)

/-- The constructor of an estimator with the arguments `plate_name`, `sampling_method` and `n_samples`. -/
def construct (kind : Kind) (plate : String) (arg : Option Nat) (n : Nat) (w : World) : World × Except Err Method :=
  match kind with
  | .score b => initScore plate arg n b w
  | .reparam => initFn .reparam .reparam plate arg n w
  | .gumbel => initFn .gumbel .gumbel plate arg n w
  | .entmax => initFn .entmax .entmax plate arg n w
  | .disarm => initFn .disarm .disarm plate arg n w
  | .arm => initWeighted .arm .arm .arm plate arg n w
  | .relax c => initWeighted (.relax c) .relax .relax plate arg n w
  | .infer t => initInfer t plate arg n w
  | .expect => initOwn .expect .enumerate plate w
  | .wor k => initOwn (.wor k) (.swor k) plate w

/-- What a program does: it makes sampling methods and estimators.  A constructor that raises is caught by the program. -/
inductive Cmd
  | sampler (plate : String) (cls : Cls)
  | method (kind : Kind) (plate : String) (arg : Option Nat) (n : Nat)
  deriving DecidableEq, Repr

/-- One command. -/
def step (w : World) : Cmd → World
  | .sampler plate cls => (newSampler plate cls w).1
  | .method kind plate arg n => (construct kind plate arg n w).1

/-- All commands, one after the other. -/
def run (w : World) (p : List Cmd) : World := p.foldl step w

/-- The state before the first command. -/
def init : World := ⟨[], 0⟩

/-- The call that draws the samples: `distr.sample((n,))` (sampling/method.py:62-70), the function of an estimator with the
argument `amt_samples`, `proposal.sample((n,))` (sampling/importance_sampling.py:44, 106-107), the enumeration of the support,
and decoding without replacement. -/
inductive Draw
  | target (n : Nat) | own (f : Nat × Fn) (n : Nat) | proposal (n : Nat) | support | beam (k : Nat)
  deriving DecidableEq, Repr

/-- The weights of the samples: none, the function of an estimator, the importance ratio
(sampling/importance_sampling.py:46-52, 109-119), the probabilities (sampling/expect.py:78-103), and those without replacement. -/
inductive Weight
  | uniform | own (f : Nat × WFn) | ratio | probs | swor
  deriving DecidableEq, Repr

/-- `SamplingMethod.sample` (sampling/method.py:121-135, sampling/importance_sampling.py:54-57, sampling/seq.py:341-368): which
call draws the samples.  `present` says whether the plate is among those of the distribution.  `ImportanceSampling` calls the
`MonteCarlo` it has made, which keeps the function that was set when `ImportanceSampling` was constructed
(sampling/importance_sampling.py:30-34). -/
def Sampler.draw (s : Sampler) (present : Bool) : Draw :=
  match s.cls with
  | .monteCarlo n =>
    match s.mcSample with
    | none => .target (if present then 1 else n)
    | some f => .own f (if present then 1 else n)
  | .importance n => .proposal (if present then 1 else n)
  | .enumerate => .support
  | .mcDecoder k =>
    match s.mcSample with
    | none => .target (if present then 1 else k)
    | some f => .own f (if present then 1 else k)
  | .isDecoder k =>
    match s.mcSample with
    | none => .proposal (if present then 1 else k)
    | some f => .own f (if present then 1 else k)
  | .swor k => .beam k

/-- `SamplingMethod.weighting_function` (sampling/method.py:39-55, sampling/importance_sampling.py:61-66, 109-119).  Simplified: no
end-of-sequence token (sampling/seq.py:271-278). -/
def Sampler.weight (s : Sampler) : Weight :=
  match s.cls with
  | .monteCarlo _ => match s.mcWeight with | none => .uniform | some f => .own f
  | .mcDecoder _ => match s.mcWeight with | none => .uniform | some f => .own f
  | .importance _ => .ratio
  | .isDecoder _ => .ratio
  | .enumerate => .probs
  | .swor _ => .swor

/-- `Method.sample` (method/method.py:93-127): the call and the weights, in the state `w`. -/
def sample (m : Method) (present : Bool) (w : World) : Except Err (Draw × Weight) :=
  match w.samplers[m.sampler]? with
  | none => .error .name
  | some s => .ok (s.draw present, s.weight)

end Storch.Samplers
