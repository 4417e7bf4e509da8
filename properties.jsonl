{"id": "C01", "title": "Tensor construction checks plates against the shape", "statement": "storch.Tensor(t, parents, plates) succeeds exactly when the plate names are pairwise different and the leading dimensions of t are, in order, the sizes of the plates whose size is not 1. On success plate_dims is the number of such plates and event_shape is the rest of the shape; otherwise ValueError is raised and nothing is linked into the graph.", "quantifier": "every underlying tensor shape, every list of plates (any names, sizes including 0 and 1, any order) and every parent list", "why_tests_cant": "There are infinitely many shape/plate combinations; tests try a few well-formed ones and almost never the rejected ones.", "anchors": ["storch/tensor.py: Tensor.__init__"]}
{"id": "C02", "title": "Plate equality is an equivalence that respects name and size", "statement": "== between plates (plain or ancestral, with torch or storch weights) is reflexive, symmetric and transitive, and equal plates have the same name and size. Two plates whose storch weights differ in any element are different.", "quantifier": "every pair and triple of plates of either class with any weight", "why_tests_cant": "Symmetry across classes depends on Python's reflected-operand rule and transitivity on all triples; tests compare single pairs.", "anchors": ["storch/tensor.py: Plate.__eq__", "storch/sampling/seq.py: AncestralPlate.__eq__"]}
{"id": "C03", "title": "Plates with different weights are different plates", "statement": "If two plates carry different weight values they do not compare equal, so combining tensors that carry them is rejected instead of silently keeping one of the two weightings.", "quantifier": "every pair of plates, including plates whose weight is a plain torch tensor", "why_tests_cant": "The failing case needs two estimators that both install torch-tensor weights under one name and size; a test suite would have to guess it.", "anchors": ["storch/tensor.py: Plate.__eq__", "storch/method/arm.py: ARM.plate_weighting"]}
{"id": "C04", "title": "Plate collection is sound: no duplicates, nothing lost, conflicts rejected", "statement": "When a wrapped function is called, the collected plates have pairwise different names, contain every plate of every storch argument (nested in lists, tuples and dicts at any depth), in first-occurrence order; if two arguments carry plain plates of the same name that differ, ValueError is raised.", "quantifier": "every nested argument structure and every list of plates on the arguments", "why_tests_cant": "Ranges over arbitrarily nested containers and any number of arguments.", "anchors": ["storch/wrappers.py: _collect_parents_and_plates, _prepare_args", "storch/tensor.py: Plate.on_collecting_args, Plate.on_duplicate_plate"]}
{"id": "C05", "title": "Named broadcasting: wrapped element-wise functions act per sample", "statement": "For an element-wise function f, the result of the wrapped call f(a, b, ...) carries the union of the arguments' plates, and its value at any joint plate index and event index is f applied to each argument's value at that argument's own part of the index, whatever the order of plates on each argument. The call does not raise.", "quantifier": "all numbers of arguments, all plate lists in all orders and sizes, all event shapes, all tensor contents, all element-wise functions", "why_tests_cant": "The alignment is a loop of transposes and unsqueezes; correctness for every permutation of plates cannot be enumerated.", "anchors": ["storch/wrappers.py: _unsqueeze_and_unwrap, _handle_deterministic, _prepare_outputs_det"]}
{"id": "C06", "title": "expand_plates materialises every plate dimension", "statement": "With expand_plates=True the torch tensor handed to the wrapped function has, for every collected plate of size > 1, a leading dimension of exactly that size, holding the argument's value at each index (repeated along plates the argument does not have).", "quantifier": "all plate lists and tensor contents", "why_tests_cant": "Ranges over all plate orders and sizes.", "anchors": ["storch/wrappers.py: _unsqueeze_and_unwrap (expand branch)", "storch/wrappers.py: deterministic(expand_plates)"]}
{"id": "C07", "title": "Flattened plates are restored: left-broadcastable functions act per sample", "statement": "make_left_broadcastable(f), for f acting row by row on its first dimension, gives a tensor whose value at every joint plate index is the row function applied to the argument's slice at that index; flattening the plates to one dimension and restoring them loses and reorders nothing.", "quantifier": "all plate lists and sizes, all row functions, all contents", "why_tests_cant": "The index arithmetic of the flattening must be right for every number and size of dimensions.", "anchors": ["storch/wrappers.py: make_left_broadcastable, _unsqueeze_and_unwrap (flatten branch), _prepare_outputs_det (unflatten)"]}
{"id": "C08", "title": "Calls without storch arguments are transparent, calls with them keep structure", "statement": "A wrapped function called without storch tensors returns exactly what the function returns. With storch arguments, a nested list/tuple result comes back with the same nesting and length, None stays None, and each torch tensor in it becomes a storch tensor carrying the collected plates.", "quantifier": "every function, argument structure and result structure", "why_tests_cant": "Result structures are unbounded trees.", "anchors": ["storch/wrappers.py: _handle_deterministic, _prepare_outputs_det"]}
{"id": "C09", "title": "Wrapped functions receive the elements the caller passed", "statement": "A wrapped function receives every element of every iterable argument the caller passed, including one-shot iterators such as generators, map and zip objects.", "quantifier": "every argument, including one-shot iterators", "why_tests_cant": "Needs reasoning about the two traversals of the arguments; tests pass lists.", "anchors": ["storch/wrappers.py: _collect_parents_and_plates, _unsqueeze_and_unwrap"]}
{"id": "C10", "title": "order_plates is a topological sort on parent-closed lists", "statement": "On a list of plates with different names that contains the parents of its members, order_plates returns a permutation of the list in which every plate comes after all its parents (before, with reverse=True); it raises ValueError exactly when the parent relation has a cycle. It terminates on every input.", "quantifier": "every such list of plates of any length and any parent relation", "why_tests_cant": "Needs all DAGs and all input orders.", "anchors": ["storch/storch.py: order_plates, _isroot"]}
{"id": "C11", "title": "order_plates loses no plate and reports no spurious cycle", "statement": "On every list of plates with different names and an acyclic parent relation, order_plates returns all the plates it was given.", "quantifier": "every list of plates, also those missing some ancestors (as after a partial reduction or when size-1 plates are left out)", "why_tests_cant": "The failing lists have a member with one parent inside and one parent outside the list; ordinary tests use closed lists.", "anchors": ["storch/storch.py: order_plates", "storch/inference.py: surrogate_loss", "storch/storch.py: reduce_plates"]}
{"id": "C12", "title": "reduce_plates is the weighted sum over all plate indices", "statement": "reduce_plates(t) of a tensor whose plates are parent-closed has no plates, keeps the event shape, and equals the sum over all joint plate indices of the product of the plate weights times the value of t, for scalar, per-index and parent-dependent weights.", "quantifier": "all plate lists, sizes, weights and contents", "why_tests_cant": "Ranges over all tensors and weightings.", "anchors": ["storch/storch.py: reduce_plates", "storch/tensor.py: Plate.reduce"]}
{"id": "C13", "title": "Averaging is order independent and preserves constants", "statement": "The result of reducing plates does not depend on the order in which the plates are listed on the tensor, and reducing a constant tensor over plates whose weights sum to one gives back the constant; with default weights reduce_plates is the mean over all samples.", "quantifier": "all permutations of plates, all sizes, all contents", "why_tests_cant": "All permutations of all lists.", "anchors": ["storch/storch.py: reduce_plates, order_plates", "storch/tensor.py: Plate.reduce, Plate.__init__"]}
{"id": "C14", "title": "Partial reduction removes exactly the requested plates", "statement": "reduce_plates(t, plates) returns a tensor on which none of the requested plates is left and all other plates are.", "quantifier": "every tensor and every subset of its plates", "why_tests_cant": "Ranges over all subsets of all plate lists.", "anchors": ["storch/storch.py: reduce_plates, _handle_inputs, order_plates"]}
{"id": "C15", "title": "variance is the weighted second central moment", "statement": "variance(t, plate) equals the weighted mean of the squared deviations from the weighted mean over that plate, equals E[t^2]-E[t]^2 when the weights sum to one, is non-negative for non-negative weights, and is zero for a tensor constant along the plate.", "quantifier": "all tensors, plates and weights", "why_tests_cant": "Algebraic identity over all contents.", "anchors": ["storch/storch.py: variance"]}
{"id": "C16", "title": "gather_samples stacks samples and averages to their mean", "statement": "gather_samples([s1..sn], name) is the tensor whose value at plate index i is si; reducing the new plate gives the mean of the samples. The input tensors are unchanged. The parents of the new tensor are the samples in their order, and it is named after the first one and the plate.", "quantifier": "every non-empty list of samples of equal shape and plates", "why_tests_cant": "All list lengths and contents.", "anchors": ["storch/inference.py: gather_samples", "storch/tensor.py: IndependentTensor.__init__"]}
{"id": "C17", "title": "denote_independent leaves its argument alone", "statement": "Denoting a dimension of a storch tensor as independent returns a new tensor and does not change the plates of the tensor that was passed in.", "quantifier": "every storch tensor, dimension and plate name, in every history", "why_tests_cant": "Aliasing between the two plate lists is invisible in the returned value.", "anchors": ["storch/inference.py: denote_independent", "storch/tensor.py: IndependentTensor.__init__"]}
{"id": "C18", "title": "Graph walks visit exactly the ancestors, once each", "statement": "walk_parents (and walk_children) yields exactly the nodes reachable along parent (child) links, the start node included, each exactly once, depth-first or breadth-first, in either direction, and terminates on every finite graph, cyclic or not.", "quantifier": "every finite graph and start node", "why_tests_cant": "All graphs.", "anchors": ["storch/tensor.py: Tensor._walk_backwards, walk_parents, walk_children"]}
{"id": "C19", "title": "surrogate_loss visits ancestors before descendants", "statement": "The order in which the surrogate loss processes the stochastic ancestors of a cost is topological: no node is processed before one of its own ancestors.", "quantifier": "every acyclic computation graph", "why_tests_cant": "A breadth-first order agrees with a topological one on the small layered graphs used in tests.", "anchors": ["storch/inference.py: surrogate_loss", "storch/tensor.py: Tensor._walk_backwards"]}
{"id": "C20", "title": "Differentiable paths are detected", "statement": "has_differentiable_path(cost, x) is true whenever gradients can flow from the cost to x through the operations that were performed.", "quantifier": "every graph built through the API", "why_tests_cant": "Depends on a flag set at every link in any history.", "anchors": ["storch/util.py: has_differentiable_path", "storch/tensor.py: Tensor.__init__", "storch/method/method.py: Infer.is_pathwise, Reparameterization.is_pathwise"]}
{"id": "C21", "title": "Cleaning frees the whole connected graph and terminates", "statement": "Cleaning any node of a graph none of whose nodes was cleaned before empties the parent and child links of exactly the nodes connected to it, terminates on every graph including cyclic ones, and a second call changes nothing.", "quantifier": "every finite graph and start node", "why_tests_cant": "All graphs.", "anchors": ["storch/tensor.py: Tensor._clean"]}
{"id": "C22", "title": "After every backward, no reachable tensor keeps graph links", "statement": "In every history of building, backward and reset calls, after a backward the tensors that took part hold no links, also when a tensor of an earlier iteration is used again.", "quantifier": "every sequence of iterations", "why_tests_cant": "The leak appears only on the second use of a tensor that was cleaned once.", "anchors": ["storch/tensor.py: Tensor._clean", "storch/inference.py: backward, reset"]}
{"id": "C23", "title": "The computation graph stays consistent and acyclic", "statement": "In every state reachable through the API, parent and child links mirror each other with multiplicity for nodes that were never cleaned, every parent was created before its child, so the graph is acyclic.", "quantifier": "every sequence of API calls", "why_tests_cant": "Invariant over all histories.", "anchors": ["storch/tensor.py: Tensor.__init__, Tensor._clean"]}
{"id": "C24", "title": "topological_sort lists children before parents", "statement": "topological_sort(costs) terminates, lists only ancestors of the costs, each at most once, every node after all its children; it lists all ancestors when every descendant of an ancestor leads to one of the costs.", "quantifier": "every acyclic graph with mirrored links and every list of distinct leaf costs", "why_tests_cant": "All DAGs.", "anchors": ["storch/util.py: topological_sort"]}
{"id": "C25", "title": "print_graph gives different nodes different labels", "statement": "Two different nodes printed by print_graph never get the same label; the label of a node is its name, or a letter for its kind if it has none, followed by the number of nodes printed before it with the same start.", "quantifier": "every graph, with any user-chosen names", "why_tests_cant": "Depends on the interplay of counters over all name sequences.", "anchors": ["storch/util.py: print_graph"]}
{"id": "C26", "title": "Wrapper contexts are restored whatever happens inside", "statement": "After any call of a deterministic function, however deeply nested, returning or raising at any point, the deterministic depth is what it was before, and the stochastic context is restored likewise.", "quantifier": "every program of nested wrapped calls and every crash point", "why_tests_cant": "All nestings and all crash points.", "anchors": ["storch/wrappers.py: _handle_deterministic, stochastic"]}
{"id": "C27", "title": "ignore_wrapping ends with its block", "statement": "After a with ignore_wrapping() block has been left, by falling through or by an exception, wrapping is active again if it was active before; a nested block leaves the outer block's effect in place.", "quantifier": "every nesting and every crash point", "why_tests_cant": "The failing paths need an exception inside the block or a nested block.", "anchors": ["storch/wrappers.py: ignore_wrapping", "storch/sampling/method.py: MonteCarlo.sample"]}
{"id": "C28", "title": "Stochastic work is rejected inside deterministic contexts", "statement": "Inside a deterministic context every sampling call and every stochastic call raises RuntimeError, and inside either context denote_independent and gather_samples raise RuntimeError; none of them changes the graph when rejected; a deterministic function that returns a sampled or independent tensor raises RuntimeError.", "quantifier": "every program and nesting", "why_tests_cant": "All nestings.", "anchors": ["storch/wrappers.py: stochastic, _handle_deterministic", "storch/inference.py: denote_independent, gather_samples", "storch/method/method.py: Method.sample"]}
{"id": "C29", "title": "The cost registry contains exactly the accepted costs, in order", "statement": "After any sequence of add_cost calls (with gradients enabled or disabled, with accepted or rejected tensors) since the last reset, costs() is the list of the costs accepted while gradients were enabled, in call order; a rejected call changes nothing in it.", "quantifier": "every sequence of calls", "why_tests_cant": "All histories.", "anchors": ["storch/inference.py: add_cost, costs, reset"]}
{"id": "C30", "title": "backward leaves a clean slate exactly when it completes without create_graph", "statement": "After a completed backward(create_graph=False) no cost is registered and a further backward raises RuntimeError; with create_graph=True the costs stay; when the surrogate loss raises, the registry is unchanged.", "quantifier": "every history and every crash point inside backward", "why_tests_cant": "Crash points and histories.", "anchors": ["storch/inference.py: backward, reset, surrogate_loss"]}
{"id": "C31", "title": "Tensors are never exposed to Python control flow", "statement": "Converting a storch tensor to bool, int, float, index, list, numpy or iterating it or calling any of the in-place/initialisation methods the library bans raises IllegalStorchExposeError (or another error) instead of returning a value.", "quantifier": "every method name of the torch API and every call route (function, method, operator)", "why_tests_cant": "The ban is a table of strings; a hole in it is a name nobody tests.", "anchors": ["storch/excluded_init.py: exception_methods", "storch/tensor.py: Tensor.__torch_function__, __getattr__, __bool__ and the other dunder methods"]}
{"id": "C32", "title": "magic_box evaluates to one and has every-order score derivatives", "statement": "magic_box(l) has value 1, its derivative is magic_box(l) times the derivative of l, and derivatives of every order of magic_box(l)*r equal those of exp(l)*r divided by the value of exp(l).", "quantifier": "every differentiable l and r and every order", "why_tests_cant": "All functions and all orders of differentiation.", "anchors": ["storch/util.py: magic_box"]}
{"id": "C33", "title": "The surrogate loss evaluates to the total average cost", "statement": "The value returned by backward is the sum over the costs of their weighted average over all plates, whatever the graph, provided each estimator's control variate evaluates to zero (as those of the score function with any baseline and of RELAX do).", "quantifier": "every graph, set of costs, plates and weights", "why_tests_cant": "All graphs and contents.", "anchors": ["storch/inference.py: surrogate_loss, backward"]}
{"id": "C34", "title": "The score function estimator is unbiased to every order", "statement": "For discrete variables sampled with the score function (any number of samples, nested plates of any depth, several variables depending on each other), the expectation of the surrogate loss as a function of the parameters is the true expected cost, so its derivatives of every order at the current parameters are unbiased.", "quantifier": "all finite distributions depending on parameters, all costs, all plate sizes, all depths and all derivative orders", "why_tests_cant": "An expectation over all random outcomes; tests can only sample.", "anchors": ["storch/inference.py: surrogate_loss", "storch/method/method.py: ScoreFunction.estimator", "storch/util.py: magic_box"]}
{"id": "C35", "title": "The batch-average baseline keeps the estimator unbiased", "statement": "The batch-average baseline of sample i is the mean of the costs of the other samples, and adding the resulting control variate leaves the expected surrogate-loss gradient unchanged.", "quantifier": "all numbers of samples > 1, all distributions and costs", "why_tests_cant": "Expectation over all outcomes.", "anchors": ["storch/method/baseline.py: BatchAverageBaseline", "storch/method/method.py: ScoreFunction.estimator"]}
{"id": "C36", "title": "The moving-average baseline keeps the estimator unbiased", "statement": "Adding the moving-average baseline leaves the expected gradient of the score function estimator unchanged.", "quantifier": "all decay rates, histories of costs, distributions and costs", "why_tests_cant": "The bias is a constant factor close to one, invisible in noisy tests.", "anchors": ["storch/method/baseline.py: MovingAverageBaseline", "storch/method/method.py: ScoreFunction.estimator"]}
{"id": "C37", "title": "Infer does not count a gradient twice", "statement": "Storchastic's default method gives an unbiased gradient for a reparameterizable distribution: the pathwise derivative, without a score-function term on top.", "quantifier": "all reparameterized distributions and costs", "why_tests_cant": "Needs the derivative of the estimator in every parameter; tests check that it runs.", "anchors": ["storch/method/method.py: Infer", "storch/util.py: has_differentiable_path"]}
{"id": "C38", "title": "Enumeration visits every outcome once and computes exact expectations", "statement": "Expect/Enumerate over a vector of d independent variables with support of size E creates E^d samples which are all the outcomes, each exactly once, with weights equal to their probabilities and summing to one; the weighted reduction of a cost is its exact expectation; it raises when E^d exceeds the budget.", "quantifier": "all E, d, probabilities and costs", "why_tests_cant": "All sizes.", "anchors": ["storch/sampling/expect.py: Enumerate.sample, Enumerate.weighting_function"]}
{"id": "C39", "title": "Enumeration is exact for every event shape and every set of plates", "statement": "The same holds for event shapes with several dimensions and for parameters carrying plates of size one.", "quantifier": "all event shapes and plate lists", "why_tests_cant": "Silent failure: the result has the right shape but covers only part of the outcomes.", "anchors": ["storch/sampling/expect.py: Enumerate.sample"]}
{"id": "C40", "title": "Importance sampling is unbiased", "statement": "Sampling n times from a proposal q that covers p and weighting with p/(n q), the expected weighted cost and its parameter derivatives of every order are those of the expected cost under p.", "quantifier": "all finite p, q, costs, n", "why_tests_cant": "Expectation over all outcomes.", "anchors": ["storch/sampling/importance_sampling.py: ImportanceSampling", "storch/inference.py: surrogate_loss"]}
{"id": "C41", "title": "Sequence importance weights are products of step ratios", "statement": "After t steps of importance-sampled decoding the weight of each sequence is 1/n times the product over its steps of p_i/(q_i+eps).", "quantifier": "all sequence lengths, probabilities and n", "why_tests_cant": "Induction over the number of steps.", "anchors": ["storch/sampling/importance_sampling.py: ImportanceSampleDecoder.weighting_function"]}
{"id": "C42", "title": "ARM weights select the first half and the estimator is unbiased", "statement": "ARM's plate weights are non-negative, sum to one and vanish on the antithetic half; with a symmetric noise distribution and an odd score the resulting gradient has the same expectation as the score-function gradient.", "quantifier": "all n, noise distributions symmetric about zero, costs", "why_tests_cant": "Expectation over all outcomes.", "anchors": ["storch/method/arm.py: ARM"]}
{"id": "C43", "title": "RELAX's control variate evaluates to zero and its weights select the hard samples", "statement": "RELAX's control variate has value zero in the forward pass for every cost function and control network; with rebar the weights are 1/n on the hard samples, zero on the rest, and sum to one.", "quantifier": "all tensors, control networks and n", "why_tests_cant": "All contents.", "anchors": ["storch/method/relax.py: RELAX.estimator, RELAX.plate_weighting"]}
{"id": "C44", "title": "Sampling without replacement never returns a sequence twice", "statement": "After any number of decoding steps the k sequences of a sample-without-replacement method are pairwise different, there are min(k, number of candidates) of them at each step, and each extends by one token the sequence its parent index points to.", "quantifier": "all k, domain sizes, number of steps, log-probabilities and Gumbel noise", "why_tests_cant": "Induction over steps, all tie patterns of the noise.", "anchors": ["storch/sampling/swor.py: SampleWithoutReplacement.decode_step", "storch/sampling/seq.py: IterDecoding.decode"]}
{"id": "C45", "title": "Joint log-probabilities follow the chosen sequences", "statement": "The joint log-probability kept for each sampled sequence is the sum of the conditional log-probabilities of its tokens along its own history.", "quantifier": "all numbers of steps and choices", "why_tests_cant": "Bookkeeping through arbitrary parent indexing at every step.", "anchors": ["storch/sampling/swor.py: SampleWithoutReplacement.decode_step", "storch/sampling/seq.py: SequenceDecoding.sample, MCDecoder.decode"]}
{"id": "C46", "title": "Tensors from earlier decoding steps are re-indexed to their descendants", "statement": "When a tensor created at an earlier decoding step is combined with one of a later step, its value at sample i is the value belonging to the ancestor of sample i.", "quantifier": "all chain lengths and parent indexings", "why_tests_cant": "Composition of index maps of arbitrary length.", "anchors": ["storch/sampling/seq.py: AncestralPlate.on_unwrap_tensor, on_duplicate_plate"]}
{"id": "C47", "title": "Without-replacement importance weights", "statement": "The weights of sampling without replacement are non-negative, zero for the last sample, and in the biased variant sum to one.", "quantifier": "all k and log-probabilities", "why_tests_cant": "All contents.", "anchors": ["storch/sampling/swor.py: SampleWithoutReplacement.compute_iw, weighting_function"]}
{"id": "C48", "title": "Rao-Blackwellised weights sum to one and keep the expectation", "statement": "The k samples are the k-1 most probable outcomes and one outcome drawn from the rest; the weights are non-negative and sum to one; the expected weighted cost is the exact expectation.", "quantifier": "all k, finite distributions and costs", "why_tests_cant": "Expectation over all outcomes.", "anchors": ["storch/sampling/mapo.py: RaoBlackwellizedSample"]}
{"id": "C49", "title": "Conditional Gumbels stay below their parent and keep the order", "statement": "cond_gumbel_sample returns values not above the conditioning maximum and strictly increasing in the unconditioned Gumbels; both branches of log1mexp compute the same function.", "quantifier": "all real arguments", "why_tests_cant": "Continuum of inputs.", "anchors": ["storch/sampling/swor.py: cond_gumbel_sample, log1mexp"]}
{"id": "C50", "title": "Conditional relaxed categorical samples agree with the hard sample", "statement": "For a categorical distribution conditional_gumbel_rsample returns perturbed values whose arg max is the hard sample it was conditioned on.", "quantifier": "all probabilities, noise and hard samples", "why_tests_cant": "Continuum of inputs.", "anchors": ["storch/storch.py: conditional_gumbel_rsample"]}
{"id": "C51", "title": "Conditional relaxed Bernoulli samples agree with the hard sample", "statement": "For a Bernoulli distribution the conditional relaxed sample rounds to the hard sample it was conditioned on.", "quantifier": "all probabilities, noise and hard samples", "why_tests_cant": "Continuum of inputs.", "anchors": ["storch/storch.py: conditional_gumbel_rsample"]}
{"id": "C52", "title": "Gumbel-softmax temperature annealing is bounded", "statement": "Over any number of updates the temperature never increases, stays positive, and is never below (1-rate) times the configured minimum (nor, as documented, below the minimum itself).", "quantifier": "all rates in (0,1), start temperatures, minima, numbers of updates", "why_tests_cant": "Unbounded iteration.", "anchors": ["storch/method/method.py: GumbelSoftmax.update_parameters"]}
{"id": "C53", "title": "Per-node gradient accumulation sums all gradients until cleaned", "statement": "The gradients recorded on a stochastic tensor for a parameter are the sum of all gradients delivered by backward passes since the last clean; after cleaning the tensor, later gradients are not recorded.", "quantifier": "every sequence of hook calls and cleans", "why_tests_cant": "All histories.", "anchors": ["storch/method/method.py: Method._create_hook", "storch/tensor.py: StochasticTensor._clean"]}
{"id": "C54", "title": "reset returns a sequence decoder to its initial state", "statement": "After reset a sequence decoder is in the state it had after construction, so each decoding starts the same way whatever was decoded before.", "quantifier": "every history of sample and reset calls", "why_tests_cant": "All histories.", "anchors": ["storch/sampling/seq.py: SequenceDecoding.reset, IterDecoding.reset", "storch/sampling/importance_sampling.py: ImportanceSampleDecoder.reset"]}
{"id": "C55", "title": "The surrogate loss can be computed for every sampled model", "statement": "For every program that samples variables with the score function, whatever the numbers of samples of the variables, and registers costs computed from them, surrogate_loss returns a scalar.", "quantifier": "all programs, numbers of samples (one or several, in any combination), draws and costs", "why_tests_cant": "The tests use one or two variables; the failure needs three with particular numbers of samples.", "anchors": ["storch/inference.py: surrogate_loss", "storch/util.py, storch/tensor.py: order_plates, Plate.index_in"]}
{"id": "C56", "title": "CHECK_DIFFERENTIABLE_PATH accepts differentiable models", "statement": "With storch.CHECK_DIFFERENTIABLE_PATH switched on, reparameterized methods raise only when the cost does not depend differentiably on the sample.", "quantifier": "all reachable graphs, costs and samples", "why_tests_cant": "Quantifies over all graphs; the option is off by default and never tested.", "anchors": ["storch/method/method.py: Reparameterization.is_pathwise, GumbelSoftmax.is_pathwise, GumbelEntmax.is_pathwise", "storch/util.py: has_differentiable_path"]}
{"id": "C57", "title": "Baselines keep higher derivatives unbiased", "statement": "With the batch-average baseline the expectations of the second and higher derivatives of the surrogate loss are those of the expected cost, as they are without baselines.", "quantifier": "all orders of differentiation, finite distributions, smooth costs, numbers of samples, over the law of the draws", "why_tests_cant": "The project's tests differentiate once; a second derivative's bias is an expectation over all draws and is only visible against a reference value.", "anchors": ["storch/method/method.py: ScoreFunction.estimator (control variate (1 - magic_box(log_prob)) * baseline)", "storch/inference.py: surrogate_loss (control variate multiplied by the magic box)"]}
{"id": "C59", "title": "Ended sequences stay ended", "statement": "Once a sequence decoded with an end-of-sequence token contains that token, every later token of the sequence is the end-of-sequence token again.", "quantifier": "all numbers of samples, distributions, perturbations and numbers of decoded variables", "why_tests_cant": "Whether an ended sequence is continued depends on which of the unboundedly many rows the top-k selection picks at each of arbitrarily many steps; a test sees one run.", "anchors": ["storch/sampling/swor.py:92-108", "storch/sampling/seq.py:195-215"]}
{"id": "C60", "title": "Sampling without replacement gives unbiased estimates", "statement": "With unnormalised importance weights (biased_iw=False), the expected weighted sum of a cost over the sequences drawn without replacement equals the expectation of the cost.", "quantifier": "all numbers of samples, finite distributions and costs, over the law of the Gumbel noise", "why_tests_cant": "The expectation is over a continuous law; a sampled average cannot tell a bias from noise without a reference value.", "anchors": ["storch/sampling/swor.py: SampleWithoutReplacement.decode_step (perturbed_log_probs = 0.0), compute_iw, weighting_function"]}
{"id": "C62", "title": "undo_unique restores the plates that unique removed", "statement": "storch.unique keeps each distinct sample once under one UniquePlate, together with an index that finds every sample among them; storch.undo_unique, applied to anything computed from the unique samples, gives back a tensor with the original plates that holds the value belonging to each sample.", "quantifier": "all storch tensors with plates and event dimensions, all functions of the unique samples", "why_tests_cant": "The round trip has to hold for every number of plates, every shape and every pattern of equal samples; in the code it fails for all of them, which no set of passing or failing samples shows.", "anchors": ["storch/unique.py:17-110", "storch/tensor.py:171-241", "storch/wrappers.py:211-219", "storch/sampling/seq.py:327-331"]}
{"id": "C63", "title": "The Rao-Blackwellised score function is unbiased", "statement": "The surrogate loss of a program with a variable sampled by RaoBlackwellSF has the expected cost as its expectation over the random numbers, and so have its derivatives of every order.", "quantifier": "all numbers of samples, numbers of values, differentiable log-probabilities, differentiable costs and parameters, over the law of the Gumbel noise", "why_tests_cant": "The expectation is over a continuous law, and the claim is about derivatives of every order for all distributions and costs; a sampled average cannot tell a bias from noise.", "anchors": ["storch/method/rao_blackwell.py:13-32", "storch/sampling/mapo.py:41-102", "storch/method/multi_sample_reinforce.py:10-29", "storch/inference.py:105-206"]}
{"id": "C64", "title": "The surrogate loss of ScoreFunctionWOR has the gradient of the estimator without replacement", "statement": "The gradient of the surrogate loss of a program with a variable sampled by ScoreFunctionWOR is, for each cost, the gradient of the importance-weighted estimator (equations 9 to 11 of its source) plus the weighted gradients of the costs.", "quantifier": "all four variants, numbers of samples, numbers of values, perturbations, differentiable log-probabilities and costs", "why_tests_cant": "The gradient depends on the drawn values, the threshold, the distribution and the cost in a nonlinear way; a test compares single runs whose reference value would have to be computed by the same formula.", "anchors": ["storch/method/multi_sample_reinforce.py:32-75", "storch/sampling/swor.py:185-207", "storch/inference.py:175-206"]}
{"id": "C65", "title": "Exactly one variable of a decoder contributes to a cost", "statement": "Of the variables decoded by one decoder, exactly the one whose plate object the cost has contributes a score-function term to the cost; a variable with a plate of the decoder and a cost without one is rejected.", "quantifier": "all numbers of variables, all further plates, all orders of the plates", "why_tests_cant": "The numbers of variables and plates are unbounded; double counting only shows in particular combinations of plates.", "anchors": ["storch/method/multi_sample_reinforce.py:10-29"]}
{"id": "C61", "title": "DisARM is an unbiased gradient estimator", "statement": "For a Bernoulli variable sampled with DisARM, the surrogate loss has the expected cost as its expected value and the gradient of the expected cost as its expected gradient; the samples are antithetic pairs, each distributed like the variable.", "quantifier": "all numbers of pairs, logits, event dimensions and costs; expectation over the logistic noise", "why_tests_cant": "An expectation over continuous noise can only be estimated by a test, and the bias depends on the cost function, the logits and the shape of the variable.", "anchors": ["storch/method/arm.py:98-175", "storch/inference.py:175-206"]}
{"id": "C67", "title": "has_backwards_path tells which inputs are connected to the output", "statement": "The i-th flag returned by has_backwards_path is true exactly if the gradient functions of the output are connected to the i-th input; the walk over the backward graph terminates and yields every reachable node once.", "quantifier": "all finite backward graphs (cyclic or not), outputs and lists of inputs", "why_tests_cant": "The number of graphs and of positions of an input in the list is unbounded; tests with a connected input at one position say nothing about the others.", "anchors": ["storch/util.py:95-161"]}
{"id": "C70", "title": "Sum, mean and logsumexp reduce exactly the named dimensions", "statement": "storch.sum, storch.mean and storch.logsumexp applied to a list of plate names and event dimensions return a tensor without these plates and dimensions, whose entry at every index is the reduction of the entries over them; numbers that denote plate dimensions are rejected.", "quantifier": "all tensors with any plates and event shapes, all lists of dimensions (names, positive and negative numbers), all reductions", "why_tests_cant": "Ranks, plates, orders and mixtures of names and (negative) numbers are unbounded.", "anchors": ["storch/storch.py:10-57"]}
{"id": "C58", "title": "Gradients kept after cleaning are off the autograd graph", "statement": "After a stochastic tensor has been cleaned, the gradients recorded in its param_grads no longer depend on the autograd graph, also when backward was called with create_graph.", "quantifier": "all distributions and parameters, all sequences of gradients (with or without a graph) and cleanings", "why_tests_cant": "Values are the same whether or not a gradient is detached; the sequences of backward passes and cleanings are unbounded.", "anchors": ["storch/tensor.py:862-873", "storch/method/method.py:59-91"]}
{"id": "C69", "title": "The batched binary cross entropy reduces per sample", "statement": "b_binary_cross_entropy returns for every sample (of the plates not named in dims) the mean or the sum of the cross entropies of all entries of that sample, where the target is repeated along missing plates and event dimensions.", "quantifier": "all inputs and targets with any plates (in any order) and event shapes, all reductions, all lists dims of plates", "why_tests_cant": "The numbers and orders of plates and event dimensions of the two arguments are unbounded.", "anchors": ["storch/nn/losses.py:9-60", "storch/wrappers.py:285-309"]}
{"id": "C66", "title": "The weights of an unordered set are probability times leave-one-out ratio", "statement": "UnorderedSet.weighting_function gives every decoded sequence the weight p(s) * P(rest of the set | s not available) / P(set), the probability of the sequence times the leave-one-out ratio of drawing without replacement; these weights sum to one, and the expected weighted cost is the exact expectation of the cost (up to the error of the numerical integration, which vanishes).", "quantifier": "all decoded sets of any number of sequences over any variables and distributions, all numbers of integration points, all hyperparameters a, all costs", "why_tests_cant": "The weights are numerical integrals over random sets: no finite number of sets, distributions or random numbers determines their limit or the expectation.", "anchors": ["storch/sampling/unordered_set.py:12-110", "storch/sampling/swor.py:34-66", "storch/sampling/swor.py:90-207"]}
{"id": "C68", "title": "The gradient of the unordered set estimator is unbiased, with and without its baseline", "statement": "For UnorderedSetEstimator the surrogate loss built by storch.backward has the weighted cost as value, its gradient is the sum over the sampled set of weight * (gradient of the cost + (cost - baseline) * gradient of the log-probability), and the expectation of this gradient over the random numbers is the gradient of the expected cost (up to the error of the numerical integration), with use_baseline=True as well as with use_baseline=False.", "quantifier": "all domains, distributions, numbers of samples, cost functions, all random numbers, all hyperparameters a and numbers of integration points", "why_tests_cant": "Unbiasedness is a statement about the expectation over all random numbers, and a wrong baseline moves the mean by an amount that is easily hidden in the variance of any sample.", "anchors": ["storch/method/unordered.py:9-80", "storch/sampling/unordered_set.py:12-110", "storch/inference.py:184-206"]}
{"id": "C71", "title": "Programs that mix sampled, enumerated and reparameterised variables give unbiased derivatives of every order", "statement": "In a program where some variables are sampled with ScoreFunction (no baseline), others are enumerated with Expect and others are sampled with Reparameterization, with parameters computed from any earlier variables, storch.backward builds a surrogate loss without plates whose derivatives of every order at the current parameters, averaged over the samples and the noise, are the derivatives of the expected cost; sampled variables enter through their likelihood ratio, enumerated ones through their probabilities, reparameterised ones through their values, also where one depends on the other.", "quantifier": "all programs of finitely many variables (discrete ones whose enumerated values have positive probability, and reparameterised ones with finitely many values of the noise), in any order and with any dependencies, all numbers of samples (at least two) and of values (two to the budget), all costs, all derivatives", "why_tests_cant": "Unbiasedness of every order is about expectations over all samples of all programs; a test sees one program, finitely many samples and finitely many orders.", "anchors": ["storch/method/method.py:93-193", "storch/method/method.py:309-347", "storch/method/method.py:512-580", "storch/sampling/expect.py:16-76", "storch/sampling/method.py:121-150", "storch/inference.py:105-206"]}
{"id": "C72", "title": "Reparameterised programs give unbiased gradients for every law of the noise", "statement": "In a program whose variables are all sampled with Reparameterization, with parameters computed from any earlier variables, storch.backward builds a surrogate loss without plates whose value, averaged over the noise of rsample, is the expected cost; for almost all noise it is differentiable in the parameters, and its gradient averaged over the noise is the gradient of the expected cost.", "quantifier": "all programs of finitely many reparameterised variables with any dependencies, all numbers of samples (at least two), all costs, all laws of the noise (as the Gaussian law) for which the expectation may be differentiated under the integral, all noise tensors whose entries have this law", "why_tests_cant": "The noise has a continuum of values and the claim is about its average; a test sees finitely many samples of one program and cannot separate a small bias from noise.", "anchors": ["storch/method/method.py:93-193", "storch/method/method.py:309-347", "storch/sampling/method.py:121-150", "storch/inference.py:105-206"]}
{"id": "C73", "title": "A sample depends on every parameter of its distribution", "statement": "Sampling from a distribution makes every storch tensor that is a parameter of it, at any depth of nesting, a parent of the sample exactly once, gives the sample the plates of these parameters, and marks it as requiring gradients exactly when one of the parameters does; get_distr_parameters binds each parameter name to one tensor.", "quantifier": "all distributions nested to any depth, all contexts of parents and plates", "why_tests_cant": "A missing parent silently removes a gradient; tests see a few distributions, while nesting depth, shared parameters and contexts are unbounded.", "anchors": ["storch/util.py:67-92", "storch/method/method.py:100-122"]}
{"id": "C74", "title": "Programs that mix score function, enumeration and reparameterisation are unbiased for every law of the noise", "statement": "In a program whose variables are sampled with ScoreFunction (no baseline), enumerated with Expect or sampled with Reparameterization, with parameters computed from any earlier variables, storch.backward builds a surrogate loss without plates whose value, averaged over the samples and the noise of rsample, is the expected cost; for almost all noise it is differentiable in the parameters whatever the samples are, and its gradient averaged over the samples and the noise is the gradient of the expected cost.", "quantifier": "all programs of finitely many such variables in any order and with any dependencies (also distributions that depend on reparameterised variables), all numbers of samples (at least two), all costs, all probabilities that are positive near the parameters, all laws of the noise (as the Gaussian law) for which the expectation may be differentiated under the integral, all noise tensors whose entries have this law", "why_tests_cant": "The noise has a continuum of values and the claim is about its average together with the average over the samples; a test sees finitely many samples of one program and cannot separate a small bias from noise.", "anchors": ["storch/method/method.py:93-193", "storch/method/method.py:309-347", "storch/method/method.py:512-580", "storch/sampling/method.py:121-150", "storch/sampling/expect.py:16-76", "storch/inference.py:105-206"]}
{"id": "C75", "title": "The conditional relaxed sample has the law of the relaxed sample given the hard sample", "statement": "For a categorical distribution and every temperature: the probability that the relaxed sample lies in a set and is discretized to outcome j equals the probability of j times the probability that conditional_gumbel_rsample for the one-hot hard sample j lies in that set, up to the probability that clamp_probs moves one of the random numbers. Hence resampling conditionally on the hard sample leaves the joint law of hard and relaxed sample unchanged. The same holds for Bernoulli distributions.", "quantifier": "all numbers of outcomes, probabilities, temperatures, measurable sets, and choices of the index among equal maxima", "why_tests_cant": "A statement about laws of continuous random variables; tests only see finitely many samples.", "anchors": ["storch/storch.py: conditional_gumbel_rsample", "storch/util.py: rsample_gumbel_softmax", "storch/method/relax.py: discretize"]}
{"id": "C76", "title": "RELAX is unbiased", "statement": "For a vector of independent categorical variables sampled with RELAX (without rebar) and a cost on the discretized samples, in exact arithmetic and without the clamping of probabilities and random numbers to the machine precision: for all random numbers the surrogate loss can be computed, has no plates and evaluates to the average cost of the discretized samples; for almost all random numbers it is differentiable; and the expectation of its gradient is the derivative of the expected cost, whatever the control network, the factor eta and the temperature, all of which may be trained. The same for Bernoulli variables.", "quantifier": "all numbers of variables, outcomes and samples, all continuously differentiable probabilities, temperatures and control networks, all differentiable costs and factors, all choices of the index among equal maxima", "why_tests_cant": "The claim is about the average over a continuum of random numbers, and holds for every control network; a test sees finitely many samples and cannot separate a small bias from noise.", "anchors": ["storch/method/relax.py:155-333", "storch/util.py:229-251", "storch/storch.py:269-305", "storch/inference.py:105-206", "storch/method/method.py:93-193"]}
{"id": "C77", "title": "GumbelSoftmax gradients", "statement": "For a vector of independent one-hot categorical or Bernoulli variables sampled with GumbelSoftmax, without parents and in exact arithmetic: without straight_through the surrogate loss evaluates to the average cost of the relaxed samples, is differentiable for every draw and the expectation of its gradient is the derivative of the expected cost of the relaxed samples. With straight_through the loss evaluates to the average cost of the quantized samples, its expectation is the expected cost under the discrete distribution, its gradient is the derivative of the cost at the quantized samples applied to the derivative of the relaxed samples, and the expectation of that gradient is the derivative of the expected cost.", "quantifier": "all numbers of variables, outcomes and samples, all continuously differentiable probabilities, all temperatures, all costs with continuous derivative, all choices of the index among equal maxima", "why_tests_cant": "The claim is about the average over a continuum of random numbers; a test sees finitely many samples and cannot separate bias from noise.", "anchors": ["storch/method/method.py:350-411", "storch/util.py:229-251", "storch/inference.py:105-206"]}
{"id": "C78", "title": "Operators on storch tensors are torch's operators per sample", "statement": "For every binary or unary Python operator that torch defines element by element, applying it to a storch tensor and another tensor or number gives a storch tensor with the plates of the operands whose value for every sample is torch's operator applied to the values of the operands for that sample.", "quantifier": "all operators, tensors, plates, shapes, numbers and element functions", "why_tests_cant": "Quantifies over all tensors, plates and operators; the tests use + and * only.", "anchors": ["storch/tensor.py: Tensor operator overloads (646-761)", "storch/tensor.py: Tensor.__eq__", "storch/wrappers.py: _handle_deterministic"]}
{"id": "C79", "title": "A decoder reports how many sequences have ended", "statement": "After any number of decoded variables, get_amt_finished is the number of sampled sequences that contain the end-of-sequence token, and all_finished is true exactly when all of them do; both can be asked at any time.", "quantifier": "all distributions, domain sizes, random numbers, numbers of samples and variables, choices of topk", "why_tests_cant": "Quantifies over all runs of the decoder; the reports are not tested at all.", "anchors": ["storch/sampling/seq.py: SequenceDecoding.get_amt_finished", "storch/sampling/seq.py: SequenceDecoding.all_finished", "storch/sampling/seq.py: SequenceDecoding.sample"]}
{"id": "C80", "title": "get_sampled_seq returns the sequences", "statement": "After any number of decoded variables, get_sampled_seq() returns one tensor whose row for a sample holds the tokens of the sequence of that sample, in the order in which the variables were decoded.", "quantifier": "all distributions, event shapes, random numbers, numbers of samples and variables, choices of topk", "why_tests_cant": "Quantifies over all runs of the decoder and shapes; the method is not tested at all.", "anchors": ["storch/sampling/seq.py: SequenceDecoding.get_sampled_seq", "storch/sampling/seq.py: SequenceDecoding.sample"]}
{"id": "C81", "title": "RELAX trains its control variate on the squared gradient", "statement": "When backward is called with update_estimator_params, every control parameter of a RELAX or REBAR method receives the gradient of the mean squared gradient of the sampled distribution's parameters, once.", "quantifier": "all numbers of RELAX variables, costs below them, control parameters, recorded gradients and parents", "why_tests_cant": "Quantifies over all graphs and recorded gradients; the tests never look at the gradient of the control parameters.", "anchors": ["storch/method/relax.py: RELAX.update_parameters", "storch/method/method.py: Method._update_parameters", "storch/inference.py: backward (update_estimator_params)", "storch/inference.py: surrogate_loss"]}
{"id": "C82", "title": "What RELAX differentiates for training is the recorded gradient", "statement": "For a RELAX variable, the derivative of the recorded gradient with respect to a control parameter, as torch computes it, is the derivative of the gradient that the program would record if it were run with the changed control parameter.", "quantifier": "all categorical RELAX programs, control networks, temperatures, costs, random numbers, numbers of samples and directions of the control parameters", "why_tests_cant": "Quantifies over all networks and random numbers and compares derivatives of second order; not tested at all.", "anchors": ["storch/method/relax.py: RELAX.estimator", "storch/inference.py: surrogate_loss (magic_box)", "storch/inference.py: magic_box"]}
{"id": "C83", "title": "Decoding over plates is decoding at each index of the plates", "statement": "If a variable is decoded for a distribution whose parameters carry plates, then decode returns, and at every index of the plates the tokens, joint log-probabilities, parent indices and perturbed log-probabilities are those of decoding the distribution with the parameters at that index alone; the sample holds the value of the support that each token stands for.", "quantifier": "all plates and their sizes, places of the decoder's own plate among them, event and element shapes, domain sizes, log-probabilities, supports, earlier samples, finished masks, noise, choices of topk and k", "why_tests_cant": "Quantifies over all shapes and numbers of plates and all random choices; the tests decode with at most one plate of fixed size.", "anchors": ["storch/sampling/seq.py: IterDecoding.decode", "storch/sampling/swor.py: SampleWithoutReplacement.decode_step", "storch/sampling/swor.py: SampleWithoutReplacement.select_samples", "storch/sampling/seq.py: right_expand_as"]}
{"id": "C84", "title": "storch.grad returns the gradients on the plates of the inputs", "statement": "storch.grad(outputs, inputs) returns for every input, in the order of the inputs, the gradient that torch.autograd.grad computes for it (None for unused inputs that are allowed), as a tensor with the plates of the input, named after the input, and linked as a child of all outputs and of the input. Nothing else in the graph changes.", "quantifier": "all reachable states, outputs, inputs that are storch or torch tensors, grad_outputs, plates, shapes and gradients", "why_tests_cant": "Quantifies over all computation graphs and plates; the tests never call storch.grad.", "anchors": ["storch/storch.py: grad", "storch/tensor.py: Tensor.__init__", "storch/wrappers.py: _prepare_args"]}
{"id": "C85", "title": "Finished sequences carry on their own perturbed log-probability at every index of the plates", "statement": "When sampling sequences without replacement, a sequence that ended with the end-of-sequence token is continued only by that token, with the perturbed log-probability it had before, at every index of the plates, in whatever order the distribution and the variables before carry the plates. Other sequences are left alone.", "quantifier": "all numbers, sizes and orders of plates, masks of finished sequences, perturbed log-probabilities and end-of-sequence tokens", "why_tests_cant": "Needs several plates that two distributions carry in different orders; the result has the right shape and plausible values.", "anchors": ["storch/sampling/swor.py: SampleWithoutReplacement.decode_step", "storch/sampling/seq.py: SequenceDecoding.decode", "storch/tensor.py: Tensor.__setitem__"]}
{"id": "C86", "title": "A variable whose distribution lacks plates of earlier variables is decoded with the same distribution at each index of those plates", "statement": "When a variable is decoded after variables over more plates than its own distribution has, then at every index of all plates the tokens, values, joint log-probabilities, parent indices and perturbed log-probabilities are those of decoding its distribution at the index of its own plates, from what the variables before have at this index. Decoding such a variable raises no exception.", "quantifier": "all numbers and sizes of plates, of event cells, of values and of samples, all selection functions and noise", "why_tests_cant": "Broadcasting a missing plate to the wrong place gives a tensor of the right shape with plausible values; the tests of the library decode over the same plates.", "anchors": ["storch/sampling/seq.py: IterDecoding.decode", "storch/sampling/swor.py: SampleWithoutReplacement.decode_step", "storch/wrappers.py: _unsqueeze_and_unwrap"]}
{"id": "C87", "title": "An estimator draws and weights its samples with its own functions", "statement": "When an estimator is constructed with a sampling method (or makes its own), then whenever it samples, the samples are drawn with the sampling function of this estimator, as many as the sampling method says, and weighted accordingly, whatever other sampling methods and estimators the program constructs before or after, including constructors that raise. A constructor returns exactly if the name of the sampling method is that of the estimator and its class and the other arguments fit.", "quantifier": "all programs that construct sampling methods and estimators of all classes, in any order, with any arguments", "why_tests_cant": "Estimators change the sampling method object they are given. The failing cases need two estimators that share one object, or a caught exception, and then only the law or the gradient of the samples is wrong.", "anchors": ["storch/sampling/method.py: SamplingMethod.set_mc_sample, set_mc_weighting_function", "storch/method/method.py: Method.__init__, Reparameterization.__init__, GumbelSoftmax.__init__, ScoreFunction.__init__, Infer.__init__", "storch/method/arm.py: ARM.__init__", "storch/method/relax.py: RELAX.__init__", "storch/sampling/importance_sampling.py: ImportanceSampling, ImportanceSampleDecoder"]}
{"id": "C88", "title": "REBAR is unbiased", "statement": "With REBAR, and with RELAX and rebar=True, the plate of a variable holds three rows for each sample (hard, relaxed and conditional). Although the cost is computed on all rows, the surrogate loss evaluates to the average cost of the hard samples alone, and the expectation of its gradient is the derivative of the expected cost.", "quantifier": "all numbers of samples, numbers of variables and outcomes, differentiable probabilities, temperatures, costs, control networks that give one number per sample, factors eta and all random numbers (the expectation is over these)", "why_tests_cant": "Bias is a statement about an integral over all random numbers; a test sees finitely many noisy gradients, and a row used with the wrong weight, or a relaxed row in the place of a conditional one, still gives plausible gradients.", "anchors": ["storch/method/relax.py: RELAX.sample_gumbel, RELAX.estimator, RELAX.plate_weighting, REBAR", "storch/storch.py: conditional_gumbel_rsample", "storch/inference.py: backward"]}
{"id": "C89", "title": "The default control network sees one sample at a time", "statement": "When RELAX, REBAR or LAX are given `in_dim` instead of a control network, the network they build gives exactly one number for every sample, on the plates of the sample, and computes it from the elements of that sample alone, in row-major order; samples whose size does not fit raise.", "quantifier": "all values of in_dim (numbers and sequences), all weights, all numbers and nestings of plates, all event shapes and all samples", "why_tests_cant": "Reshaping across a plate boundary mixes samples only for particular combinations of plate sizes, event sizes and in_dim; the result still has a plausible shape, and a mixed control variate only makes the gradient biased.", "anchors": ["storch/method/relax.py: Baseline.__init__, Baseline.forward", "storch/method/relax.py: RELAX.estimator (compute_REBAR_cvs)", "storch/tensor.py: Tensor.__torch_function__"]}
{"id": "C90", "title": "LAX gives a gradient", "statement": "backward finishes for programs with a variable sampled with LAX: its estimator returns a contribution to the surrogate loss.", "quantifier": "all control networks, distributions, costs and other variables of the program", "why_tests_cant": "A run shows that one program fails; that no program at all gets past the estimator is a statement about all control networks, distributions and costs.", "anchors": ["storch/method/relax.py: LAX.estimator", "storch/inference.py: surrogate_loss"]}
{"id": "C91", "title": "The plates of every tensor describe its dimensions", "statement": "At every point of every program the plates of every tensor have different names, the shape of the tensor starts with the sizes of its plates that are not of size one, in order, and plate_dims is the number of these.", "quantifier": "all programs over the API (constructors, deterministic and stochastic calls, sampling, independent tensors, costs, gradients, backward, reset), all nestings, all states after exceptions", "why_tests_cant": "The constructor checks this once, but the list of plates is shared between tensors and changed in place; whether any sequence of calls breaks it for an older tensor is a statement about all programs.", "anchors": ["storch/tensor.py: Tensor.__init__, IndependentTensor.__init__", "storch/inference.py: denote_independent, gather_samples, add_cost", "storch/wrappers.py: _prepare_outputs_det", "storch/method/method.py: Method.sample"]}
{"id": "C92", "title": "storch.gather picks samples", "statement": "storch.gather(input, dim, index), where dim names a plate of n samples and the values of index are numbers below n, gives a tensor with the plates of both arguments, whose value for a joint sample and event position is the value of input there with the sample number of dim replaced by the value of index; with a value that is no sample number, or event dimensions of index larger than those of input, it raises.", "quantifier": "all tensors with agreeing plates in any order, all sizes and event shapes, all index values", "why_tests_cant": "The dimension passed to torch is found by position among the plates of the call, after both tensors are expanded and permuted; a wrong position still gives a tensor of the right shape for tensors of equal sizes, and tests try a few layouts.", "anchors": ["storch/storch.py: gather", "storch/wrappers.py: _prepare_args, _handle_deterministic, _prepare_outputs_det"]}
{"id": "C93", "title": "storch.cat joins the events of every joint sample", "statement": "storch.cat of storch tensors along an event dimension, counted from the end or from the start after the plates with more than one sample, has the plates of all tensors, and for every joint sample its events are those of the tensors one after the other; along a dimension that is not an event dimension, or with events that do not agree in the other dimensions, joining two or more tensors raises, and so does joining none.", "quantifier": "all lists of tensors with agreeing plates in any order, all sizes and event shapes, all dimensions", "why_tests_cant": "Tensors with different plates are expanded and permuted before torch.cat, so a wrong order of the plates or a wrong dimension shows only for particular layouts; the statement covers all of them.", "anchors": ["storch/storch.py: cat", "storch/wrappers.py: _prepare_args, _handle_deterministic, _prepare_outputs_det"]}
{"id": "C94", "title": "Averaging plates in stages equals averaging them at once", "statement": "Calling reduce_plates several times, each time for some of the plates that are left, until none is left, gives the values that one call for all plates gives (law of total expectation).", "quantifier": "all tensors with nested plates and every form of weights, all ways of splitting the plates into stages, requests by name or by plate", "why_tests_cant": "The number of ways of splitting and ordering the plates grows factorially, and weights may depend on plates of other stages; a test sees a few of them.", "anchors": ["storch/storch.py: reduce_plates, order_plates, _handle_inputs", "storch/tensor.py: Plate.reduce"]}
{"id": "C95", "title": "Samples of GumbelEntmax and GumbelSparseMax", "statement": "For every variable a sample of GumbelEntmax or GumbelSparseMax is a vector of probabilities over its outcomes that orders the outcomes as their Gumbel variables; the outcomes with the largest entries are independent over samples and variables and have the probabilities of the distribution; the vector is one-hot exactly when the largest Gumbel variable leads by at least temperature / (alpha - 1). With straight_through the sample is one-hot.", "quantifier": "all one-hot categorical and Bernoulli distributions of any batch shape, all alpha > 1 and all learned alphas, all temperatures, all numbers of samples, all random numbers", "why_tests_cant": "The law is about a continuum of random numbers, and the threshold of entmax depends on all entries at once; a test sees finitely many vectors.", "anchors": ["storch/method/method.py: GumbelEntmax, GumbelSparseMax", "storch/util.py: rsample_gumbel", "examples/vae/bernoulli_vae.py"]}
{"id": "C96", "title": "Gradients of GumbelEntmax and GumbelSparseMax", "statement": "With GumbelEntmax or GumbelSparseMax the surrogate loss is the average cost of the relaxed samples as a function of the parameters; although entmax has corners, the loss is differentiable for almost all random numbers, and the expectation of its gradient is the derivative of the expected cost of the relaxed sample.", "quantifier": "all one-hot categorical distributions with differentiable probabilities over any parameter space, all continuously differentiable costs, all temperatures and alphas, all numbers of samples and variables", "why_tests_cant": "It exchanges a derivative and an integral over a continuum of random numbers, for a sample that has corners; sampling only gives noisy averages.", "anchors": ["storch/method/method.py: GumbelEntmax, GumbelSparseMax", "storch/inference.py: backward"]}
{"id": "C97", "title": "Relaxed samples without replacement", "statement": "UnorderedSetGumbelSoftmax decodes different outcomes without replacement and relaxes each one: the rows are probability vectors whose largest entries are those of the decoded outcomes; the surrogate loss is the weighted sum of the costs of the rows, its expectation tends to the expected cost of a Gumbel-Softmax sample, and the expected gradient of the loss tends to the gradient of that expectation.", "quantifier": "all one-hot categorical distributions with at least two outcomes, all numbers of samples from two, all random numbers, temperatures and continuously differentiable costs, all parameter spaces", "why_tests_cant": "The claims are about the joint law of sets drawn without replacement and continuous conditional samples, and about a derivative under the integral; sampling gives noisy averages that hide a bias.", "anchors": ["storch/sampling/unordered_set.py: GumbelSoftmaxWOR", "storch/method/unordered.py: UnorderedSetGumbelSoftmax", "storch/storch.py: conditional_gumbel_rsample"]}
{"id": "C98", "title": "The samples of denote_independent", "statement": "denote_independent(tensor, dim, plate_name) makes the slices along dim the samples of the new plate: at sample k of the new plate and at every sample of all other plates, the value is the slice k of the argument at that sample; and averaging over the new plate gives the mean of the argument over dim. The new tensor has the argument as its only parent (none for a torch tensor) and is named after it and the plate.", "quantifier": "all torch and storch tensors, all dimensions, all plates, all plate names that are new", "why_tests_cant": "A test of one shape cannot see that two plates are exchanged when their sizes happen to agree; the claim is for all shapes, dimensions and lists of plates.", "anchors": ["storch/inference.py: denote_independent", "storch/tensor.py: IndependentTensor.__init__"]}
{"id": "C99", "title": "Costs of later decoding steps reach the variables of earlier steps sample by sample", "statement": "When a sequence is decoded step by step, a cost of a later step is given to the estimator of a variable of an earlier step sample by sample, without averaging over the samples first; the surrogate loss weights the cost of each sampled sequence with the magic box of the sum of the log-probabilities of the values in that same sequence; and for independently drawn sequences the expectation of its gradient is the gradient of the expected cost, with and without the batch average baseline.", "quantifier": "all numbers of samples and steps, all variables of earlier steps, all costs and parameters", "why_tests_cant": "The plates of different steps are different objects with different variable indices; a test sees one program, and an average taken over the wrong plate still gives a loss with the right value, as only the gradient would be biased.", "anchors": ["storch/inference.py: surrogate_loss", "storch/sampling/seq.py: AncestralPlate.is_in, AncestralPlate.index_in, AncestralPlate.on_unwrap_tensor", "storch/method/method.py: ScoreFunction.estimator", "storch/method/baseline.py: BatchAverageBaseline.compute_baseline"]}
{"id": "C100", "title": "A decoder accepts the variables it has decoded and no others", "statement": "When an estimator samples with a sequence decoder, a distribution whose parameters carry a plate with the name of the estimator passes the check of Method.sample exactly if that plate belongs to a variable that this decoder has decoded since the last reset; so autoregressive models can be decoded, and a plate of the same name from elsewhere (an ordinary plate, another decoder, the sequence before the reset) raises ValueError.", "quantifier": "all decoders (Monte Carlo, importance sampling, without replacement), all states they reach, all lists of plates", "why_tests_cant": "The tests decode with one class of decoder at a time and never present plates of another decoder or of an earlier sequence; the claim is about all classes, states and lists of plates.", "anchors": ["storch/method/method.py: Method.sample", "storch/sampling/method.py: SamplingMethod.on_plate_already_present", "storch/sampling/swor.py: SampleWithoutReplacement.on_plate_already_present"]}
{"id": "C101", "title": "Unique samples do not mix with the plates they came from", "statement": "When a wrapped function is called with tensors of which one is over unique samples (it has a UniquePlate) and another still has a plate that these samples came from, directly or through further unique plates, the call raises ValueError; when none of the replaced plates is present the check passes. In particular the result of storch.unique cannot be combined with anything that has a plate of the original tensor.", "quantifier": "all lists of plates that a call collects, unique plates nested to any depth, all tensors that unique accepts", "why_tests_cant": "The check walks a tree of unique plates of any depth and compares it with every collected plate; there are no tests of unique, and samples would only reach small trees.", "anchors": ["storch/unique.py: UniquePlate.on_collecting_args", "storch/unique.py: UniquePlate.has_shrunken", "storch/unique.py: unique", "storch/wrappers.py: _prepare_args"]}
{"id": "C102", "title": "Reducing a unique plate averages over all samples", "statement": "When a tensor computed from unique samples, such as a cost, is reduced over its UniquePlate, the result is the reduction over the original plates of the tensor that assigns to every sample the value of its unique representative; the call does not raise and no event dimension is touched.", "quantifier": "all tensors under unique plates, all numbers of unique samples, all plates that were replaced, all event shapes", "why_tests_cant": "There are no tests of unique plates; the failure holds for every cost and for all event shapes but one, which only a statement about all shapes shows.", "anchors": ["storch/unique.py: UniquePlate.reduce", "storch/unique.py: UniquePlate.undo_unique", "storch/tensor.py: Tensor.__init__"]}
{"id": "C103", "title": "SumAndSample decodes any discrete variable", "statement": "A SumAndSample decoder with sum_size and sample_size at least one (others raise ValueError in the constructor) decodes every discrete variable: it keeps the sum_size most probable values and sample_size sampled ones among the rest, or all values if there are fewer.", "quantifier": "all sizes of the decoder, all distributions, all samples so far, all perturbations", "why_tests_cant": "There are no tests of SumAndSample; that it fails for every size and every variable, and with which exception, is a statement about all of them.", "anchors": ["storch/sampling/swor.py: SumAndSample.__init__", "storch/sampling/swor.py: SumAndSample.select_samples", "storch/sampling/swor.py: SampleWithoutReplacement.decode_step"]}
