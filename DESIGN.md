# Formal model of storchastic: design

Source: `/repo` (HEmile/storchastic, pinned commit), read as text only.  All Lean code is in
`/verif/lean/Verif`.  Properties are in `properties.jsonl`, the property → theorem map in
`MANIFEST.json`, the mutation log in `seeded/LOG.jsonl`.

* `Verif/Model`: one Lean function per Python function, with file and lines.
* `Verif/Lemmas`: helper lemmas.
* `Verif/Props`: the theorems of the properties (`Cxx_...`), with the specifications they use and, next to them,
  concrete cases that meet their hypotheses (`example`s and the `...Case` namespaces).

## 1. Trusted base

* Lean 4.33.0's kernel.
* The axioms `propext`, `Classical.choice`, `Quot.sound` (Lean/Mathlib's standard ones).  No axiom is
  added, and no `sorry`, `native_decide` or `bv_decide` is used.  Section 6 lists the axioms of every theorem.
* The hand-written model: that each Lean definition says what the cited Python lines do.  Every
  definition cites file and lines and states its simplifications.
* The meaning given to torch primitives (section 2).
* The documentation of packages outside the repository: `entmax` (C95: its functions return the maximiser of the expected
  score plus the Tsallis entropy), pyro's straight-through distributions (C77).

## 2. What is modelled, and how

Shallow embedding: one Lean function per Python function, branch by branch; Python exceptions are
values (`Except Err`), and where a Python function mutates state before raising, the state after the
exception is part of the result.

| Layer | Lean modules (`Verif/Model`) | Python | Representation |
|---|---|---|---|
| torch tensors | `Torch` | torch primitives used by storch | shape `List Nat` + index function `List Nat → α`, `α` any commutative ring/field |
| plates | `Plate`, `OrderPlates` | tensor.py `Plate`, seq.py `AncestralPlate` (equality, collection), storch.py `order_plates` | inductive type with parents; weights are torch or storch tensors |
| tensor construction, wrappers | `Wrap` | tensor.py `Tensor.__init__`, `multi_dim_plates`, wrappers.py | nested argument trees, alignment loop, deterministic call, output wrapping |
| reductions | `Reduce`, `Dims`, `Losses` | storch.py `reduce_plates`, `variance`, `sum`, `mean`, `logsumexp`, tensor.py `Plate.reduce`, nn/losses.py | as written |
| graph | `Graph` | `_walk_backwards`, `_clean`, `topological_sort`, `print_graph` | finite graph of node numbers, parent and child lists |
| backward graph of torch | `GradGraph` | util.py `walk_backward_graph`, `has_backwards_path` | any finite graph |
| state machine | `World` | module globals of wrappers.py and inference.py, cost registry, `backward`/`reset`, `ignore_wrapping`, graph links, `denote_independent` | explicit world, programs as syntax trees with crash points |
| exposure | `Expose` | tensor.py `__getattr__`, operators, excluded_init.py, wrapped module functions | tables as data, dispatch as functions |
| autograd | `AD`, `Dual` | torch autograd | see below |
| surrogate loss, estimators | `Surrogate`, `Methods`, `Arm`, `Disarm`, `Relax` | inference.py `surrogate_loss`, util.py `magic_box`, method.py, baseline.py, arm.py, relax.py | estimators as functions of the copied tensor and the reduced cost |
| sampling | `Sampling`, `Enumerate`, `Importance` | sampling/method.py, expect.py, importance_sampling.py | noise is an argument |
| sequence decoding | `Decode`, `Ancestral`, `SworWeight`, `RaoBlackwell`, `SeqMethod`, `UnorderedSet`, `UnorderedMethod` | seq.py, swor.py, unordered_set.py, importance_sampling.py decoder, mapo.py, multi_sample_reinforce.py, rao_blackwell.py, unordered.py | beams of sequences; noise, networks and selections are arbitrary inputs |
| relaxations | `Relaxed`, `RelaxRun`, `GumbelRun`, `Entmax` | storch.py `conditional_gumbel_rsample`, relax.py, util.py `rsample_gumbel_softmax`, `rsample_gumbel`, method.py `GumbelSoftmax`, `GumbelEntmax` | real numbers, noise is an argument |
| conditional Gumbels | `Gumbel` | swor.py `cond_gumbel_sample`, storch.py `conditional_gumbel_rsample` | real numbers |
| hooks | `Hooks` | method.py `_create_hook`, `_set_hook`, temperature annealing, tensor.py `_clean` | state machine |
| expectations | `Expectation` | none: specification side | sampling programs, finite sums over all outcomes |

**Autograd.** A torch scalar that lives on an autograd graph is modelled by the function
`Θ → ℝ` obtained by replaying the graph with other parameter values, every *detached* subterm being
frozen at the current parameters `θ₀`.  The value of the tensor is that function at `θ₀`, and its
derivatives of any order are the derivatives of that function at `θ₀`; this is what `backward`
(repeated with `create_graph=True`) computes.  `detach f` is the constant function `f θ₀`.  For concrete runs
(refutations and examples) the same model is run on dual numbers over ℚ (`Model/Dual`).

**Randomness.** Samples are inputs of the model.  Expectations are finite sums over all outcomes with
their probabilities (discrete distributions), integrals over the noise (ARM, Gumbel-max), or properties for all noise
values.

**Numbers.** Exact (an arbitrary field, or ℝ).  Floating point rounding, NaN, infinities, dtypes and
devices are not modelled (`-inf` log-probabilities are modelled where the decoder compares them).

## 3. Not modelled

Torch kernels (convolutions, losses), CUDA, pickling, printing except label allocation, `storch.typing`,
example scripts, neural networks in `storch/nn` (only through arbitrary functions), `storch/unique.py`
(experimental), the numerical integration of `UnorderedSet`, and Pyro interoperation.

## 4. Properties

For each: what is modelled, how it is proved, and for partial ones what is missing.  "Refuted" means the code violates
the statement: the negation is proved with a concrete witness (or for a whole class of inputs), and the part that holds
is a theorem with suffix `_partial`.

| Id | Model | Proof | What is missing |
|---|---|---|---|
| C01 | `STen.checkPlates`: the constructor loop over plates | induction on the plate list; both directions of the iff against an independent notion of admissible plates |  |
| C02 | `Plate.pyEq`: `Plate.__eq__`, `AncestralPlate.__eq__` and Python's reflected dispatch | case analysis; induction on parents |  |
| C03 | same | refuted by two torch weights | torch weights that differ: `Plate.__eq__` does not compare them |
| C04 | `_collect_parents_and_plates`, `on_collecting_args` over argument trees | mutual induction on trees; specification by flattening; ancestral plates of the same name: the newest survives; `C04_node` carries it over to the tensors in the graph of `World` |  |
| C05 | alignment loop, deterministic call, output wrapping | loop invariants of transposes and unsqueezes; pointwise denotation |  |
| C06 | expand branch | index arithmetic |  |
| C07 | reshape branch of `make_left_broadcastable` | mixed-radix encode/decode are inverse |  |
| C08 | `_handle_deterministic`, `_prepare_outputs_det` on result trees | induction on result trees |  |
| C09 | one-shot iterators as a tree node that is empty on its second traversal | refuted; partial by induction on trees | one-shot iterators |
| C10 | `order_plates` | invariants of Kahn's algorithm, counting argument for completeness |  |
| C11 | same | refuted by a chain of plates with an absent ancestor; soundness on every list | plates with some but not all ancestors in the list |
| C12 | `Plate.reduce`, `reduce_plates` | denotation of one reduction, induction on the order | one-sample plates with storch weights; the event shape with storch weights (refuted) |
| C13 | same | Fubini for finite sums |  |
| C14 | same | as C12; refuted through C11 | requests with some but not all ancestors of a plate |
| C15 | `variance` | ring algebra on finite sums | as C12 |
| C16 | `gather_samples` | pointwise; name and parents by cases over the call (`C16_named`) | a single sample (refuted) |
| C17 | `denote_independent` on a heap of plate lists | refuted for every storch argument | the argument itself |
| C18 | `_walk_backwards` with visited set, both strategies | invariants: visited = reachable, on every finite graph |  |
| C19 | reversed breadth-first order | refuted; partial by distance | ancestors with a second, shorter path to the cost |
| C20 | link flags in the world | invariant of all reachable states: no flag is ever set | the property is false for every pair of different tensors |
| C21 | `_clean` | invariants over the recursion, on every finite graph |  |
| C22 | `backward` in the world | invariants over histories; refuted | tensors that were cleaned before and are used again |
| C23 | links in the world | invariants over histories; refuted | the copies made by `surrogate_loss` |
| C24 | `topological_sort` | loop invariants |  |
| C25 | `print_graph` | invariant on name counters |  |
| C26 | program syntax with exceptions, interpreter over the globals | induction on programs |  |
| C27 | same | refuted | bodies that raise; nested blocks |
| C28 | same | simulation: stochastic calls inside deterministic ones equal `raise`; refuted for sampling; for what a function returns, induction over the outputs | sampling from a distribution inside a deterministic function |
| C29 | registry state machine | induction on histories |  |
| C30 | `backward`, `reset` | invariants over histories; cleaning terminates |  |
| C31 | name tables and dispatch | all names, all results of torch; refuted for `normal_` | `normal_` (a missing comma) |
| C32 | `magic_box` over `Θ → ℝ` | iterated derivatives |  |
| C33 | `surrogate_loss` | denotation of the loss as a finite sum; refuted | costs that lack a plate of a stochastic tensor above them, when the weights of that plate are a storch tensor or do not sum to one; baselines when a plate with a storch weight is averaged before the estimator sees the cost |
| C34 | same, sampling programs | induction on the program: expected loss = expected cost as functions of the parameters |  |
| C35 | batch-average baseline | pairing of samples in finite sums |  |
| C36 | moving-average baseline | exact bias; refuted | the current cost is part of the average |
| C37 | `Infer.is_pathwise` | invariant of C20; refuted | the pathwise gradient is dropped / counted with the score |
| C38 | `Expect` | product enumeration, joint loss of several variables | supports with one element (refuted); several event dimensions (C39) |
| C39 | same | refuted in three ways; for scalar variables the number of plates that the code subtracts does not matter (`C39_scalar_partial`) | several event dimensions and vectors below a plate of size one (refuted) |
| C40 | `ImportanceSampling` | change of measure in finite sums; the loss of the library run with its derivatives of all orders | event dimensions (refuted), proposals with plates of their own (refuted: raises for two samples or more), one sample |
| C41 | `ImportanceSampleDecoder` | induction on steps | event dimensions; distributions that depend on the sequence (refuted) |
| C42 | `ARM` | integrals with the reflection of the noise | event dimensions (refuted); several variables |
| C43 | `RELAX`, `REBAR` | algebra on the denotation of the estimator | variables without event dimensions; per-sample control networks with rebar (refuted) |
| C44 | `decode_step`, top-k selection | induction on steps, for every noise | independent dimensions with few outcomes, single outcomes (refuted) |
| C45 | joint log-probabilities | induction on steps | Monte Carlo decoding (refuted) |
| C46 | `on_unwrap_tensor`, `AncestralPlate` | induction on steps | selections between that are not idempotent; scalars (refuted) |
| C47 | `SampleWithoutReplacement` weights | real analysis | a single sequence (refuted) |
| C48 | `RaoBlackwellSample` weights | finite sums; Gumbel-max integral | several variables (refuted) |
| C49 | `cond_gumbel_sample`, `log1mexp` | real analysis |  |
| C50 | conditional relaxed categorical | real analysis |  |
| C51 | conditional relaxed Bernoulli | refuted for every probability up to 1/3 | hard sample 1 |
| C52 | temperature annealing | induction on updates; refuted | the minimum itself |
| C53 | gradient hooks | induction on events |  |
| C54 | decoder state | induction on calls, per class |  |
| C55 | surrogate loss of sampled models | induction on programs; refuted | models that mix one and several samples |
| C56 | `is_pathwise` with the check switched on | invariant of C20; refuted | the check |
| C57 | the score-function run of C34-C36 with a baseline; derivatives of any order of the loss as a function | expectation of the loss in closed form (expected cost minus the chi-square divergence times the cost); derivatives of order n; refuted with a second derivative | several variables with baselines; moving averages |
| C58 | hooks and `StochasticTensor._clean` | invariant over events; refuted | gradients with a graph (refuted) |
| C59 | end-of-sequence masking | induction on steps | fewer than `k` sequences; token zero; Rao-Blackwellised sampling (refuted) |
| C60 | importance-weighted estimate | integral over the noise; refuted |  |
| C61 | `DisARM`: sampling, `estimator`, `surrogate_loss` | closed form of samples, integral over the noise; refuted on exact dual numbers | the estimator is biased in value and gradient (refuted); raises without event dimensions (refuted) |
| C62 | `unique`, `UniquePlate`, `undo_unique`; `torch.unique` by its promises | rows and index from the promises of `torch.unique`; `undo_unique` raises on every tensor: names of plates after one and two passes of the loop | the round trip (refuted for every tensor with a plate and every function of the unique samples); two plates; tensors without event dimensions (both refuted) |
| C63 | `RaoBlackwellSF`: decoding, weights, `estimator`, `surrogate_loss` of one variable | loss in closed form; Gumbel-max integral; derivatives of all orders | samples of integer type (refuted); several variables (C48 refuted) |
| C64 | `ScoreFunctionWOR.estimator`, `compute_iw`, `surrogate_loss` of one variable | loss and gradient in closed form; refuted for every law of the random numbers | the cost is multiplied in twice (refuted); several variables |
| C65 | `SeqMethod.is_pathwise` | case analysis, for any plates |  |
| C66 | `UnorderedSet.weighting_function` on the plate that decoding left | the sums as Riemann sums; dominated convergence in the number of points and the summand 1e-6 jointly; law of the top-k Gumbel variables by integration; recursion of the law of drawing without replacement; refuted | the series for large arguments (refuted); sets of all sequences; several variables for the expectation |
| C67 | `walk_backward_graph`, `has_backwards_path` on any finite graph | induction on the walk with the invariant of visited nodes; induction on the search | the first input is never found; inputs with a common node; inputs equal to the output (all refuted) |
| C68 | `UnorderedSetEstimator.estimator` and `UnorderedSet.weighting_function` with the second leave-one-out ratios, through the surrogate loss | closed form of the loss through the storch operations; derivative of the control variate; law of the top-k Gumbel variables; limits of the sums by dominated convergence; integrals of a concrete distribution; refuted | the baseline of the code is biased (refuted); `use_baseline=False` raises (refuted); sets of all values; several variables |
| C69 | `b_binary_cross_entropy` through the wrapper, `expand_as`, `mean`, `sum` | values per sample by C05 and C70; refuted | `dims` and inputs without event dimensions (refuted); `weight` |
| C70 | `storch.sum/mean/logsumexp` with names and numbers | induction on the list of dimensions, entries by index | empty lists and plates with one sample (refuted) |
| C71 | whole programs of `ScoreFunction` (no baseline), `Expect` and `Reparameterization` statements: sampling, enumeration, wrapped functions, costs, `surrogate_loss`; `rsample` as a function of the parameter and of noise | induction on the program (plates, values and weights of every variable), the loss as a weighted sum over positions, exchange of the sums over enumerated values with the expectation over samples and noise; derivatives of a finite sum; the expected cost is specified separately, as the mean over the runs of the statements | distributions computed both from variables with one sample and from variables with several (C55); enumerated variables with one value (C38); values of probability zero of enumerated variables; noise with infinitely many values (C74 for the gradient); baselines (C57) |
| C72 | whole programs of `Reparameterization` statements, with real-valued noise of any law; the same run as C71 | the run does not read the law of the noise, so the closed form of C71 gives the loss as an average over entries of the noise tensors; Bochner integrals of these averages; differentiation under the integral by domination; the values are specified separately by running the statements on one noise vector; independent noise (infinite product) is shown to meet the hypothesis | distributions computed both from variables with one sample and from variables with several (C55); programs that also score or enumerate variables are C74; derivatives of higher order (C71, for noise with finitely many values) |
| C73 | `get_distr_parameters` on nested distributions; the start of `Method.sample`; for the tensor in the graph, `sampleCall` of the state machine | induction on the nesting (the innermost level that has the key), invariant of the loop over the parameters; refuted | distributions held in other ways than `base_dist`, as mixtures; levels that use one name for two tensors (both refuted) |
| C74 | whole programs that mix `ScoreFunction` (no baseline), `Expect` and `Reparameterization` statements, with real-valued noise of any law; distributions may depend on reparameterised variables; the same run as C71 | for one noise vector the program is one of C71 whose noise has one value; the average over the samples becomes a sum over runs of joint probability times cost at entries of the noise tensors; each entry has the law of the noise, so this integrates to the expected cost; every term of the loss is a multiple of such a product, hence differentiable; differentiation under the integral by domination; the mean over the runs for a given noise is specified separately | distributions computed both from variables with one sample and from variables with several (C55); enumerated variables with one value (C38); sampled or enumerated values of probability zero; baselines (C57); derivatives of higher order (C71, for noise with finitely many values) |
| C75 | `rsample_gumbel_softmax`, `discretize`, `conditional_gumbel_rsample` | change of variables on the unit cube; the bound is the probability of clamping | Bernoulli distributions (refuted) |
| C76 | `RELAX` on a vector of categorical variables: sampling, `discretize`, `conditional_gumbel_rsample`, control network, `add_cost`, `backward`; random numbers uniform on (0,1), `eps` of `clamp_probs` taken as zero | the run of the program computes the loss; the law of the conditional samples (C75) gives the mean of the control variate; differentiation under the integral with a bound by the logarithms of exponential variables | Bernoulli variables (refuted, for the term of one sample), rebar, parents |
| C77 | `GumbelSoftmax` programs of one vector of one-hot categorical or Bernoulli variables, with and without `straight_through`: sampling, `clamp_probs`, relaxed rsample, quantization (pyro code, from its documentation), `add_cost`, `backward` | the run computes the loss; differentiation under the integral on the compact cube of clamped numbers; Gumbel-max law for the quantized samples | the last part is refuted (straight-through gradient biased); parents; the clamping of random numbers for the mean of straight-through categorical samples |
| C78 | the operator methods and how Python chooses them | C05 for the wrapped functions | `<<` (refuted: operands exchanged, raises for numbers), the bitwise operators on integers (refuted: logical functions), `!=` (refuted: raises), `@` |
| C79 | the decoder of C59 with `get_amt_finished` and `all_finished` | the invariant of C59: after `k` sequences exist, a sequence contains the token if it ends with it | first variables with fewer than `k` outcomes, variables with independent dimensions, `all_finished` before the first variable, the token 0 (all refuted) |
| C80 | the decoder of C44 with `get_sampled_seq()` and `torch.cat` | invariant: every variable has one token per cell in each sequence; induction over the tensors that are joined | variables without independent dimensions (refuted: raises); `finished=True` |
| C81 | `surrogate_loss` as far as it makes the pairs of cost and parent, `_update_parameters`, `RELAX.update_parameters`, the loop of `backward` over the stochastic nodes; `torch.autograd.grad` with `allow_unused` and `backward` on a leaf by their promises; the recorded gradients are given as functions of the control parameters | the loop over the parents adds the derivatives of their mean squares; induction over the nodes that `backward` visits | several costs below one tensor (refuted: counted once for each cost), several tensors of one method (refuted: wiped), control parameters that are not used, distributions with logits (both refuted) |
| C82 | the programs of C76, with the loss as a function of all parameters | the closed form of the loss of C76 with the values that `magic_box` and `detach` fix; derivative of a product with a factor `exp(l - l0)` | refuted: an extra term remains, the derivative of the log-probability times the change of the control variate; a bias of the control network is never trained (`C82_bias_refuted`) |
| C83 | `decode`, `decode_step`, `select_samples` on tensors with all dimensions: permutations, `gather`, `reshape`, `topk`, assignment to slices, expansion; the row model of C44 to C48, C59, C79, C80 as the specification | simulation: every tensor operation acts on the rows as the operation of the row model does; induction over the event cells; that no operation raises by an invariant of shapes and index bounds | distributions that carry the plates of earlier variables in another order (missing plates: C86); that masks of finished samples never raise |
| C84 | `storch.grad` as a command of the state machine of C22 to C30; `torch.autograd.grad` is a parameter that returns a gradient or None for every input; half-made tensors of failing constructors stay in the child lists | induction over the inputs; the checks of the constructor pass because a gradient has the shape of its input (C01), the plates do not conflict (C04); the invariants of C22 to C30 are proved again with the new command | inputs without a name and inputs without a gradient raise (`C84_refuted`); `outputs` given as a single tensor or containing torch tensors, and `inputs` given as a single tensor, are not modelled |
| C85 | the lines of `decode_step` for finished sequences over tensors that each have their own order of the plates: boolean indexing of torch tensors (by position), the aligning wrapper of `__setitem__`, and the order `decode` gives to the plates of a sample | rank of a masked place in the order of memory (induction), permutation by equal orders is the identity; when the orders agree is proved from the plates of the distribution (`C85_orders_partial`) | masks and perturbed log-probabilities with different orders of the plates (`C85_refuted`) |
| C86 | `decode` and `decode_step` for a distribution without the last plates of the joint log-probabilities: inserted dimensions of size one, broadcasting addition, expansion of the support; the specification is that of C83 (`rowAt`, `tokensAt`, `DistT.at`) | decoding is shown equal to decoding with the distribution expanded over the missing plates (simulation, induction over event cells), to which C83 applies | distributions that depend on samples of the decoder: `gather` always raises (`C86_conditional_refuted`); plates in another order |
| C87 | the constructors of all estimators and sampling methods as commands on a store of sampling method objects; for every sample, which function is called with how many samples, and which weights are used; the specification is the table of functions that the classes define and what a weighted average of samples estimates | frame property of every constructor (it changes only the object it was given), induction over programs; classes of objects never change; the constructors return exactly for the arguments of a table, and make estimators with new numbers | objects given to several estimators or to a constructor that raised, importance sampling with reparameterisation (all refuted) |
| C88 | the program `x = REBAR(name, n)(OneHotCategorical(p)); add_cost(f(x))` from sampling to the surrogate loss, with the three rows for each sample, their weights, the slices of the costs and the control network of `RELAX`; the specification is the derivative of the sum over all outcomes | the surrogate loss is computed exactly: it is that of RELAX without rebar with the cost added to the control network; then the argument of C76 (conditional law, differentiation under the expectation) | Bernoulli variables (refuted for one sample: the conditional samples have the wrong law), variables with outer plates |
| C89 | `Baseline` with its two linear layers (weights arbitrary, relu an arbitrary function), on storch tensors through the wrapper and on torch tensors as in `compute_REBAR_cvs`; the specification is a formula for one hidden layer at one row of numbers | the steps one by one through the wrapper with one storch argument; row-major positions are inverted; for sizes (m, K) the network is `perSample` of a function, which is what C76 and C88 assume of control networks | with rebar: refuted (the network gets torch tensors, which have no plate_dims; for numbers above one and several samples the shapes do not fit) |
| C90 | `LAX.estimator` up to the loop over the undefined name, below the model of the surrogate loss | the loop over the variables cannot pass a variable whose estimator raises | the claim as stated is refuted for every program |
| C91 | the state machine of C19 to C30, where tensors share lists of plates | every command is a sequence of primitive changes; the invariant holds for each; programs without `denote_independent` on storch tensors never insert into a list | `denote_independent` on a storch tensor (refuted: it changes the plates of its argument); for it, the plates are the accepted ones with others in front |
| C92 | `storch.gather` through the wrapper of C05 and C06 with a `dim` keyword; `torch.gather` from its documentation | the position of the plate in the call, the expanded tensors of C06, and for the range check a joint sample for every index | one sample: `UnboundLocalError` (refuted); the integer check of torch; ancestral plates |
| C93 | `storch.cat` through the wrapper of C06; `torch.cat` as a fold that joins two tensors | the expanded tensors of C06; induction over the list for `torch.cat`; along a plate the result does not fit the plates any more (C01) |  |
| C94 | repeated calls of `reduce_plates` (the model of C12-C14) | invariant of the stages: the values are the weighted sums over the plates averaged so far; weights that do not read averaged plates can be taken out of the sum | stages with a plate and some but not all of its ancestors (refuted: plates are left); a plate whose weights depend on a plate of an earlier stage (refuted: raises) |
| C95 | the constructor of `GumbelEntmax` (choice of the function), `rsample_gumbel`, `sample_gumbel_entmax` and `MonteCarlo` in `Entmax`; the package `entmax` by its documentation (maximiser of expected score plus Tsallis entropy) | the maximiser is unique and has a threshold form (intermediate value theorem, Bernoulli inequality); the Gumbel-max law for the index of the largest entry | Bernoulli variables (refuted: entmax runs over the variables, or over the samples); straight_through (refuted: it is ignored); storch parents; gradients |
| C96 | `entmaxProgram`: `GumbelEntmax` followed by the surrogate loss of C77, elements are functions of the parameters | entmax is Lipschitz by strong concavity of the entropy, hence differentiable almost everywhere (Rademacher) under the law of the Gumbel variables; dominated differentiation | alpha above two (entmax is then not Lipschitz), gradients to a learned alpha, storch parents |
| C97 | `gumbelWorSample`, `gumbelWorLoss`: the decoder of C65, the weights of C66, `conditional_gumbel_rsample` on each row and the surrogate loss | the run of the decoder gives an injective choice of outcomes, the loss is computed entry by entry; expectations by the law of the top Gumbel variables, the law of conditional samples and dominated differentiation; `C97_biased_refuted` gives a case in which the expected gradient is too small | the gradient lacks the part that comes from the probabilities of the outcomes (`C97_mean_partial` says which part); several variables, plates, as many samples as outcomes in the expectation |
| C98 | `denote`, `denoteTorch`, `moveFront`, `newIndep` of the model of sessions | the transposed tensor is read at the index in which two positions are swapped; the check of the constructor succeeds; the mean by the theorem about reducing plates; `C98_exchanged_refuted` holds for every tensor with two plates of equal size; name and parents for every call that succeeds (`C98_named`, `C98_torch_named`) | storch tensors with several plates of more than one sample, or one such plate and a dimension further right: `transpose` swaps two dimensions where one should be moved (`C98_exchanged_refuted`, `C98_unequal_refuted`, `C98_plates_refuted`); dimensions of size one (`C98_single_refuted`); given weights; negative dimensions |
| C99 | `surrogateCost` with `scoreSampled`, on tensors with ancestral plates and the unwrapping hook of a decoder (`Chain.hook`) | what an estimator is given by unfolding the three loops over plates; the sum of the log-probabilities by induction over the variables, each addition with plates of two different steps; the expectation by summing out all but one of the independent draws (`mean_of_one`) and the derivative of the logarithms; with the batch average baseline, the control variates by the same induction (`batch_loop`), their derivative, and the mean zero of a score times the costs of the other draws (`mean_others`); with the moving average the same with one buffer for all variables (`movingVars`), which gives the exact bias | decoders that select samples, which lose the pairing of samples already when tensors without event dimensions are combined (`C46_scalar_refuted`); further plates; probabilities that are zero; with the moving average baseline unbiasedness fails (`C99_moving_refuted`) |
| C100 | the loop of `Method.sample` over the plates of the distribution, `on_plate_already_present` of all classes, on the model of decoders | the loop by induction over the plates; the chain of plates of a decoder by induction over the variables decoded (`runSwor_chain`), and by induction over any history of calls, raising ones and `reset` included (`C100_history_partial`, from bounds on the rows through the loop of `decode`); the refutations hold for all states and all variables | only the check is stated here, what decoding does with an accepted plate is C44, C46, C83; Monte Carlo and importance decoders refuse their own variables (`C100_montecarlo_refuted`); plates of another decoder and of the sequence before a reset are accepted (`C100_foreign_refuted`, `C100_reset_refuted`) |
| C101 | `on_collecting_args` and `has_shrunken` of `UniquePlate`, `unique` | `has_shrunken` is shown equal to the inductive relation `Replaced` by mutual induction over the tree of plates; the plates of the result of `unique` from its definition | plates with one sample are removed by `unique` without being recorded, so they are accepted next to the unique samples (`C101_single_refuted`); a plate of the same name that differs from the replaced one in size or weight is not the replaced plate, for it neither outcome is stated; the check of two plates of one name is C04 |
| C102 | `UniquePlate.reduce` up to the call of `reduce_plates`, which is a parameter; `UniquePlate.undo_unique`, the constructor of tensors | the refutations from the shapes: the constructor requires the sizes of all plates as a prefix of the shape (`checkPlates_ok_iff`), and one dimension is missing; `C102_square_partial` by evaluation for all sizes and the round trip of `reshape`, with further plates of one sample | the claim is false for every cost (`C102_cost_refuted`) and for what `unique` returns unless the first event dimension has the size of the unique plate (`C102_event_refuted`); the one size for which undoing returns is `C102_square_partial`, where the event dimension is then taken for the unique plate; plates of size one among the replaced ones are excluded, since `unique` does not record them |
| C103 | the constructor of `SumAndSample`, its `select_samples`, and `decode_step` up to the place where the three results are unpacked | by cases over the number of values of the variable | the claim is false: `select_samples` is unfinished and no step returns (`C103_refuted`, `C103_first_refuted` with the exception for each number of values); what is true is the constructor (`C103_construct_partial`); other plates are left out |

## 5. Findings: where the code violates a property

Each is a machine-checked theorem about the model.

* **C03** `Plate.__eq__` compares weights only if they are storch tensors; plates with different torch weights (ARM,
  REBAR, importance sampling) are equal (tensor.py:44-60).
* **C09** Collecting plates consumes one-shot iterators, so the function receives them empty (wrappers.py:45-68).
* **C11, C14** `order_plates` takes a plate whose parents are partly absent for a plate on a cycle, or drops it;
  `reduce_plates` then leaves requested plates behind (storch.py:131-177).
* **C12** Reducing a plate with one sample and a storch weight leaves the plate or uses the wrong weight, and storch
  weights add event dimensions.
* **C16, C17** `gather_samples` of one sample raises or adds an event dimension; `denote_independent` appends to the
  list of plates of its argument.
* **C19** `surrogate_loss` visits nodes in reversed breadth-first order, which is not topological.
* **C20, C37, C56** No link is ever recorded as differentiable: `has_differentiable_path` always answers no, `Infer`
  always uses the score function, and `CHECK_DIFFERENTIABLE_PATH` rejects every pathwise method.
* **C22, C23** A tensor that was cleaned once is never cleaned again; copies made by `surrogate_loss` leave one-sided
  links.
* **C27, C28** `ignore_wrapping` is not exception-safe and not nestable; sampling is accepted inside deterministic
  functions.
* **C31** A missing comma in the table of banned methods lets `normal_` through.
* **C33** A cost averaged before it is registered is multiplied with the total weight of the plates above it.
* **C36** The moving average contains the current cost: the gradient is biased by the factor `decay`.
* **C38, C39** `Expect` is wrong for supports of one element, several event dimensions, and plates of size one.
* **C40, C41** Importance weights are not multiplied over event dimensions; a plate that only the proposal has is added after
  the constructor has counted the plate dimensions, so that sampling twice or more from such a proposal always raises; the decoder refuses distributions that
  depend on the sequence.
* **C42** `ARM` does not sum its log-probability over event dimensions: the cost is counted once per event index.
* **C43** `RELAX`/`REBAR` raise for variables without event dimensions, since `log_prob.sum([])` sums everything; REBAR
  raises for control networks that return one number per sample.
* **C44, C45, C46** Decoding raises for variables with one outcome and for some independent dimensions; Monte Carlo
  decoding keeps the log-probability of the last token only; earlier steps are re-indexed twice.
* **C47, C48, C60** The biased weights of a single sequence are 0/0; Rao-Blackwellised sampling is wrong for several
  variables; the first variable is conditioned on the maximum 0, which makes the importance-weighted estimate biased.
* **C51** The conditional Bernoulli sample does not round to the hard sample.
* **C75** Nor does it have the law of the relaxed sample given the hard sample: with a probability of at most one third,
  the conditional sample for the hard sample 1 is always below one half, the relaxed sample that is discretized to 1 never
  (`C75_bernoulli_refuted`).  For categorical distributions the law is right (`C75_law`).
* **C52** Annealing undershoots the minimum temperature.
* **C55** The surrogate loss raises for models that mix one and several samples along a chain.
* **C57** With a batch-average baseline the second derivative of the surrogate loss is biased: the control variate
  `(1 - box) * baseline` is multiplied by the magic box again, which adds minus the chi-square divergence times the
  cost (for a constant cost 1 and a fair coin the second derivative is -8 instead of 0).
* **C59** Finished sequences continue while there are fewer than `k` sequences, for token zero, and with
  Rao-Blackwellised sampling, where the token is taken for `biased_iw`.
  `MCDecoder` with an end-of-sequence token other than zero raises: with several samples in every call, with one sample in
  every call from the first end-of-sequence token on.
* **C62** `undo_unique` raises for every tensor: `UniquePlate.undo_unique` puts the shrunken plates in front but keeps the
  `UniquePlate`, so that sizes do not fit, and the loop would add the plates a second time. `unique` raises for two plates with
  several samples and for tensors without event dimensions (unique.py:72-77, 82-88).
* **C63** `RaoBlackwellSF` writes the log-probability into a tensor of the type of the sample: for integer types, like those
  of `Categorical`, it is truncated and its gradient is lost, so that the gradient estimate is biased.
* **C64** `ScoreFunctionWOR.estimator` returns an estimator that already contains the cost, and `surrogate_loss` multiplies
  it with the cost again: the gradient is quadratic in the cost.
* **C61** `DisARM`: the weighting function is never installed and the raw baseline is returned as the control variate, so that
  both the value and the gradient of the surrogate loss are biased (value 3/4 instead of 1/2, gradient 0 instead of 1/4 for
  the cost `b`); variables without event dimensions raise.
* **C67** `has_backwards_path` tests `if found_i` for an index: the first input is never found. Inputs that share a node are found
  once, and inputs that are all the output give the number `False`, which raises for stochastic outputs.
* **C70** `storch.sum/mean/logsumexp` with an empty list of dimensions reduce everything; naming a plate with one sample raises.
* **C58** `StochasticTensor._clean` computes detached copies of the gradients and drops them: gradients recorded with
  `create_graph` stay on the graph.
* **C69** `b_binary_cross_entropy(..., dims=...)` always raises: the outer `deterministic` wrapper puts the reduced plate back
  into the list of plates. Inputs without event dimensions raise as well.
* **C66** `UnorderedSet.weighting_function` uses the series for `log(1 - exp(-y))` where `g_bound >= 10`, that is for large `y`,
  although it is valid for small `y` (the sign of `g_bound` is turned around in comparison with the formula of the comment): for
  `a` around 12 weights are above a thousand.  The default `a = 5` with 1000 points never reaches the branch (`default_below`).
* **C68** `terms[..., None, :]` (unordered_set.py:101-104) broadcasts the term of the row's sample, so `log_snd_leave_one_out`
  subtracts the term of the same sample a second time instead of that of the other one; the ratio does not depend on the other
  sample, and the baseline is not that of Kool et al.:
  for probabilities 1/2, 1/4, 1/4, two samples and the constant cost 1 the expected gradient converges to `2/3 ln 2 - 9/16`
  times the gradient, not to zero (`C68_biased_refuted`).  With `use_baseline=False` the method returns one tensor where the
  caller unpacks two: every backward call raises (`C68_nobaseline_refuted`).
* **C73** `get_distr_parameters` follows `base_dist` only: samples of a `MixtureSameFamily`, which has no parameters of its own, do
  not depend on the parameters of its components, and a level of the nesting hides parameters of the same name further out.
* **C76** For Bernoulli variables with probability below 1/3 RELAX is biased: the conditional samples are below one half whatever the
  hard sample is (C51, C75), so for a control network that is zero below one half the term that should have mean zero has a positive
  mean (`C76_bernoulli_refuted`: probability 1/4, zero cost, positive expected gradient).
* **C77** The straight-through gradient of `GumbelSoftmax` is biased for the discrete expected cost: for a coin and a cost that is zero on both
  outcomes the mean gradient is positive (`C77_straight_refuted`).  The value of the loss is unbiased (`C77_straight_mean`).
* **C78** `x << y` computes `y << x`: `__lshift__` is defined twice and the second definition, meant to be `__rlshift__`, counts
  (tensor.py:722-728); with a number on either side it raises.  `&`, `|` and `^` are the logical functions, so that 6 & 2 is 1.
  `x != y` raises, since only `__eq__` is defined.
* **C79** `all_finished()` raises before the first variable, because `get_amt_finished` returns the number 0, which has no method `eq`.
  With the token 0 neither report can be asked for, because `if not self.eos` takes 0 for a missing token (`C79_zero_refuted`).
  For variables with independent dimensions the tokens are counted for each sequence instead of the sequences
  (`C79_events_refuted`), and sequences that were continued after the token (C59) are not counted (`C79_refuted`).
* **C80** `get_sampled_seq()` raises for variables without independent dimensions, such as the tokens of a language model: it joins
  the tensors along a dimension that they do not have.
* **C81** `surrogate_loss` makes a new tensor for every pair of a cost and a parent, so the set of new parents (relax.py:344) never
  merges two of them: the control parameters get the gradient once for every cost below the sampled tensor.  `backward` calls
  `_update_parameters` once for every stochastic node, and each call first sets the gradients to `None`: with two sampled tensors of
  one method the training signal is lost (`C81_several_refuted`).  Distributions that are parameterised by logits raise `KeyError`.
* **C82** The control variate is part of what `magic_box` multiplies, and `estimator` only detaches parts of it, so that the gradient
  that `_update_parameters` differentiates depends on the control parameters in another way than the recorded gradient: there is an
  extra term, and a bias of the control network never gets a training signal although it changes the variance.
* **C83** No deviation found for distributions that carry all plates of the variables decoded before.  `C83_rows_partial` is the reason why the
  other claims about decoders are stated for one row: the model of one row is what the tensors hold at each index of the plates.
* **C84** `storch.grad` computes `input.name + "_grad"` (storch.py:250), which raises TypeError for every storch tensor without a name.
  `allow_unused` cannot be used: `storch.Tensor(None, ...)` raises AttributeError, for inputs without plates of size above one only after the
  links are made, so that the outputs keep a child without plates (`C84_refuted`).  `C84_returns_only` shows that these two are necessary.
* **C85** `decode_step` reads the perturbed log-probabilities of finished sequences from the underlying torch tensors (swor.py:98-100) but writes
  them through the aligning wrapper (line 108).  Samples have the plates of the distribution first (seq.py:435-457), log-probabilities those of the
  variables before.  If the orders differ, a finished sequence goes on with the perturbed log-probability of another one, or IndexError is raised
  (`C85_refuted`).
* **C86** A variable that depends on samples of the decoder but not on a plate that other variables before have cannot be decoded: the wrapper
  gives the missing plate size one, and `gather` (swor.py:71) wants the index to be no larger than that: RuntimeError, whatever the values
  (`C86_conditional_refuted`).  Where the distribution depends on an older variable, `on_unwrap_tensor` (seq.py:487) adds plates to the
  log-probabilities, but the permutation of seq.py:490-505 still counts the plates of before.  Independent variables are decoded as they should be.
* **C87** Estimators set their functions on the sampling method they are given.  Of two estimators with one sampling method the first one draws with
  the function of the second (`C87_shared_refuted`).  `Reparameterization`, `GumbelSoftmax` and others do so before they compare the plate names: after
  the ValueError the object stays changed, and a `ScoreFunction` made with it draws reparameterised samples, through which the gradient flows as
  well (`C87_failed_refuted`).  `ImportanceSampling` has bound its own function in its constructor, so `Reparameterization` with it draws with `sample`
  (`C87_importance_refuted`).  `ImportanceSampleDecoder` in contrast loses its proposal but keeps its importance weights: the estimate is biased
  (`C87_decoder_refuted`).  `DisARM.plate_weighting` (arm.py:131) is never installed.
* **C88** REBAR is unbiased for one-hot categorical variables, but for Bernoulli variables, whose conditional samples have the wrong law (C51, C75), the
  expected gradient differs from the derivative of the expected cost (`C88_bernoulli_refuted`).
* **C89** With REBAR (or `rebar=True`) and `in_dim` a sequence or at most one, the default control network raises `AttributeError` for every sample:
  `compute_REBAR_cvs` hands it torch tensors, and it reads `x.plate_dims` (`C89_rebar_refuted`). With `in_dim` a number above one and more than one
  sample of vectors, storing the control variates raises (`C89_vector_refuted`).
* **C90** `LAX.estimator` loops over `derivs`, which is defined nowhere: every surrogate loss with a cost that depends on a variable sampled with LAX
  raises (`C90_lax_refuted`).
* **C91** After `denote_independent(x, dim, name)` on a storch tensor, the plates of `x` itself no longer describe its dimensions (`C91_refuted`, the
  consequence of C17): its `plate_dims` is too small and its shape does not start with the sizes of its plates. Nothing else in the API can do this
  (`C91_fits_partial`).
* **C92** `storch.gather(x, dim, index)` raises `UnboundLocalError` when the plate `dim` has one sample (`C92_single_refuted`): only plates with more than
  one sample are searched. A scalar `index` for a tensor with vector events gives events of size one, so only the first component
  (`C92_gather_partial`: the event shape is that of `index`, padded with ones).
* **C94** Plates of a chain of three cannot be averaged in every order: after the middle one is gone, `order_plates` never
  visits the innermost one when it is averaged together with the outermost, and its plate is left (`C94_refuted`).
* **C95** `GumbelEntmax` on Bernoulli variables (as `examples/vae/bernoulli_vae.py` does) runs entmax along the last dimension,
  which holds different variables: their values sum to one in every sample.  A single Bernoulli variable with one sample is
  always 1 (`C95_bernoulli_refuted`).  `straight_through` is stored and never read (`C95_straight_refuted`).


* **`UnorderedSetGumbelSoftmax` has a biased gradient (C97).**  Each outcome that was drawn without replacement is relaxed by
  `conditional_gumbel_rsample`, which is differentiable given the outcome, but the method has no estimator for the choice of
  the outcomes and its weights are not differentiated (`storch/method/unordered.py:83-100`,
  `storch/sampling/unordered_set.py:113-149`).  The value of the loss tends to the expected cost of a Gumbel-Softmax sample; the
  gradient lacks the sum of the derivatives of the probabilities times the expected costs given the outcomes
  (`C97_mean_partial`), which is not zero (`C97_biased_refuted`).  `min_temperature` and `annealing_rate` are ignored.

* **`denote_independent` exchanges plates (C98).**  The dimension is brought to the front with `transpose(dim, 0)`
  (`storch/inference.py:35-36`), which swaps it with the first one instead of moving it.  For a tensor with two plates of the
  same size, of which the first event dimension is denoted, the result has its two plates exchanged and nothing is raised
  (`C98_exchanged_refuted`); with plates of different sizes the constructor
  raises a `ValueError`, whatever event dimension is denoted (`C98_unequal_refuted`).  A dimension of
  size one stays an event dimension (`C98_single_refuted`).

* **Score function over decoded sequences (C99).**  Without a baseline or with the batch average no violation was found for decoders
  that do not select: plates of different steps
  are identified by name in `is_in` and `index_in`, so that nothing is averaged too early.  Decoders that select are affected by
  `C46_scalar_refuted`.  The moving average is biased as in C36, and more: all variables of a sequence have the name of the
  plate, so that they share one baseline object, and the current cost is mixed into it once per variable.  The variable whose
  estimator is called at position i loses the fraction (1 - decay^(i+1)) / n of its score term (`C99_moving_bias_partial`,
  `C99_moving_refuted`).  The batch average cannot be chosen by its name with a decoder, as only `MonteCarlo` has `n_samples`
  (`C87_accepts`); the theorems about it apply when `baseline_factory` is a function that returns a `BatchAverageBaseline`.
* **C100** `MCDecoder` and `ImportanceSampleDecoder` do not override `on_plate_already_present`, so an estimator that samples with them refuses
  every distribution that depends on a variable decoded before, though `MCDecoder.decode` has a branch for this case (seq.py:351-359):
  no autoregressive model can be decoded with them (`C100_montecarlo_refuted`).  `SampleWithoutReplacement` compares
  `plate.variable_index > self.variable_index` where `>=` is meant, and does not look at which decoder made the plate: a decoder accepts
  all plates of another decoder of the same plate name that is at most one variable ahead (`C100_foreign_refuted`), and after a reset
  the plate of the sequence before, which then raises `AttributeError` in the middle of decoding (`C100_reset_refuted`).
* **C101** `unique` removes all plates of the tensor but records only those with several samples (`multi_dim_plates()`, unique.py:92), so a
  plate with one sample is lost, `undo_unique` could not restore it, and the check against mixing does not see it (`C101_single_refuted`).
* **C102** `UniquePlate.reduce` calls `undo_unique`, which puts the unique plate back on a tensor that no longer has its dimension
  (unique.py:75: `self.shrunken_plates + unique_tensor.plates`), so it raises for every cost (`C102_cost_refuted`) and for all other tensors
  whose first event dimension has not by chance the size of the unique plate (`C102_event_refuted`).
* **C103** `SumAndSample.select_samples` is unfinished: it returns two results where three are expected, asks `torch.topk` for more elements
  than there are, or returns `None` (swor.py:284-298), so that every variable raises (`C103_refuted`, `C103_first_refuted`).

## 6. Axioms

As printed by `#print axioms`, for the theorems of `MANIFEST.json` (all in namespace `Storch`).

* `propext` (11 theorems): `C08_stochastic_result`, `C09_refuted`, `C09_refuted_plain`, `C31_refuted`, `C53_cleaned`, `Decode.C54_reset_restores`, `Params.C73_conflict_refuted`, `Params.C73_refuted`, `C78_ne_refuted`, `Decode.C79_start_refuted`, `Decode.C103_refuted`
* `propext`, `Quot.sound` (69 theorems): `C01_construct_error`, `C01_construct_iff`, `C02_equivalence`, `C02_methods_alone_not_symmetric`, `C02_respects`, `C02_storch_weights_distinguish`, `C02_weight_kind`, `C03_partial`, `C09_reiterable_partial`, `C10_reverse`, `C10_terminates`, `C11_refuted`, `C16_named`, `C16_refuted`, `C17_refuted`, `C19_refuted`, `C22_refuted`, `C23_refuted`, `C24_rejects`, `C25_lines`, `C25_numbers`, `C26_contexts`, `C27_falls_through_partial`, `C27_nested_refuted`, `C27_raises_refuted`, `C27_refuted`, `C27_stays_off_partial`, `C28_refuted`, `C28_rejected_partial`, `C28_returned_partial`, `C29_accepted`, `C29_registry`, `C29_rejected`, `C29_value_errors`, `C30_kept`, `C30_slate`, `C43_rows`, `Decode.C44_constructed`, `Decode.C45_montecarlo_last`, `C53_accumulates`, `C53_hooked`, `Decode.C54_same_decoding`, `C62_no_event_refuted`, `C62_refuted`, `C62_round_refuted`, `C62_two_plates_refuted`, `C70_guard`, `C70_one_refuted`, `C73_sampled`, `Params.C73_dictionary`, `C84_refuted`, `Samplers.C87_classes`, `Samplers.C87_default_partial`, `Samplers.C87_failed_refuted`, `Samplers.C87_given_partial`, `Samplers.C87_importance_refuted`, `Samplers.C87_own`, `Samplers.C87_shared_refuted`, `C91_refuted`, `C98_named`, `C98_plates_refuted`, `C98_single_refuted`, `C98_torch_named`, `Decode.C100_montecarlo_refuted`, `Decode.C100_swor_iff`, `C101_replaced`, `C101_single_refuted`, `C101_unique_partial`, `C102_cost_refuted`
* `propext`, `Classical.choice`, `Quot.sound` (303 theorems): all the others
