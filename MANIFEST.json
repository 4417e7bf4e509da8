{
 "claims": [
  {
   "property": "C01",
   "status": "proved",
   "theorems": [
    "Storch.C01_construct_error",
    "Storch.C01_construct_iff",
    "Storch.C01_construct_result",
    "Storch.C01_multi_dim_plates"
   ],
   "note": "induction on the plate list; both directions of the iff against an independent notion of admissible plates"
  },
  {
   "property": "C02",
   "status": "proved",
   "theorems": [
    "Storch.C02_equivalence",
    "Storch.C02_methods_alone_not_symmetric",
    "Storch.C02_respects",
    "Storch.C02_storch_weights_distinguish",
    "Storch.C02_weight_kind"
   ],
   "note": "case analysis; induction on parents"
  },
  {
   "property": "C03",
   "status": "partial",
   "theorems": [
    "Storch.C03_partial",
    "Storch.C03_refuted"
   ],
   "note": "Code violates it: torch-tensor weights are not compared by Plate.__eq__. Negation proved with a witness; storch weights are compared."
  },
  {
   "property": "C04",
   "status": "proved",
   "theorems": [
    "Storch.C04_collected",
    "Storch.C04_conflict_raises",
    "Storch.C04_newest_survives",
    "Storch.C04_no_false_conflict",
    "Storch.World.C04_node"
   ],
   "note": "for ordinary plates, any nesting, any number of arguments; ancestral plates are treated separately (C46)"
  },
  {
   "property": "C05",
   "status": "proved",
   "theorems": [
    "Storch.C05_elementwise"
   ],
   "note": "all element-wise functions of any number of storch/torch tensors with ordinary plates; torch operands must not have more dimensions than the largest event"
  },
  {
   "property": "C06",
   "status": "proved",
   "theorems": [
    "Storch.C06_bce",
    "Storch.C06_expanded"
   ],
   "note": "storch and torch operands with ordinary plates"
  },
  {
   "property": "C07",
   "status": "proved",
   "theorems": [
    "Storch.C07_left_broadcastable"
   ],
   "note": "row-wise functions of any number of storch tensors; event dimensions of size zero excluded (torch cannot infer the flattened size)"
  },
  {
   "property": "C08",
   "status": "proved",
   "theorems": [
    "Storch.C08_stochastic_result",
    "Storch.C08_storch_result",
    "Storch.C08_structure",
    "Storch.C08_structure_succeeds",
    "Storch.C08_transparent"
   ],
   "note": "transparency for arguments without storch tensors and one-shot iterators (iterators are consumed, see C09)"
  },
  {
   "property": "C09",
   "status": "partial",
   "theorems": [
    "Storch.C09_refuted",
    "Storch.C09_refuted_plain",
    "Storch.C09_reiterable_partial"
   ],
   "note": "refuted for one-shot iterators (wrappers.py:45-68 consumes them while collecting plates); proved for re-iterable arguments"
  },
  {
   "property": "C10",
   "status": "proved",
   "theorems": [
    "Storch.C10_error_iff_cycle",
    "Storch.C10_reverse",
    "Storch.C10_terminates",
    "Storch.C10_topological"
   ],
   "note": "invariants of Kahn's algorithm, counting argument for completeness"
  },
  {
   "property": "C11",
   "status": "partial",
   "theorems": [
    "Storch.C11_complete_partial",
    "Storch.C11_refuted",
    "Storch.C11_sound_partial"
   ],
   "note": "Code violates it: plates with some parents inside and some outside the list are lost, or a cycle is reported. Soundness for every list and completeness for all-or-none parent lists proved."
  },
  {
   "property": "C12",
   "status": "partial",
   "theorems": [
    "Storch.C12_refuted",
    "Storch.C12_torch_argument",
    "Storch.C12_weighted_sum_partial"
   ],
   "note": "denotation of one reduction, induction on the order. Not covered, or false: one-sample plates with storch weights; the event shape with storch weights (refuted)"
  },
  {
   "property": "C13",
   "status": "proved",
   "theorems": [
    "Storch.C13_constant",
    "Storch.C13_mean",
    "Storch.C13_order_independent"
   ],
   "note": "Fubini for finite sums"
  },
  {
   "property": "C14",
   "status": "partial",
   "theorems": [
    "Storch.C14_exact_partial",
    "Storch.C14_refuted"
   ],
   "note": "as C12; refuted through C11. Not covered, or false: requests with some but not all ancestors of a plate"
  },
  {
   "property": "C15",
   "status": "partial",
   "theorems": [
    "Storch.C15_constant",
    "Storch.C15_nonneg",
    "Storch.C15_second_moment",
    "Storch.C15_variance_partial"
   ],
   "note": "ring algebra on finite sums. Not covered, or false: as C12"
  },
  {
   "property": "C16",
   "status": "partial",
   "theorems": [
    "Storch.C16_gather_partial",
    "Storch.C16_named",
    "Storch.C16_refuted"
   ],
   "note": "pointwise; name and parents by cases over the call (`C16_named`). Not covered, or false: a single sample (refuted)"
  },
  {
   "property": "C17",
   "status": "partial",
   "theorems": [
    "Storch.C17_argument_refuted",
    "Storch.C17_others_partial",
    "Storch.C17_refuted"
   ],
   "note": "refuted for every storch argument. Not covered, or false: the argument itself"
  },
  {
   "property": "C18",
   "status": "proved",
   "theorems": [
    "Storch.C18_walk"
   ],
   "note": "invariants: visited = reachable, on every finite graph"
  },
  {
   "property": "C19",
   "status": "partial",
   "theorems": [
    "Storch.C19_by_distance_partial",
    "Storch.C19_layered_partial",
    "Storch.C19_refuted"
   ],
   "note": "refuted; partial by distance. Not covered, or false: ancestors with a second, shorter path to the cost"
  },
  {
   "property": "C20",
   "status": "partial",
   "theorems": [
    "Storch.C20_always_false_partial",
    "Storch.C20_refuted"
   ],
   "note": "invariant of all reachable states: no flag is ever set. Not covered, or false: the property is false for every pair of different tensors"
  },
  {
   "property": "C21",
   "status": "proved",
   "theorems": [
    "Storch.C21_clean"
   ],
   "note": "invariants over the recursion, on every finite graph"
  },
  {
   "property": "C22",
   "status": "partial",
   "theorems": [
    "Storch.C22_refuted",
    "Storch.C22_unlinked_partial"
   ],
   "note": "invariants over histories; refuted. Not covered, or false: tensors that were cleaned before and are used again"
  },
  {
   "property": "C23",
   "status": "partial",
   "theorems": [
    "Storch.C23_acyclic",
    "Storch.C23_mirror_partial",
    "Storch.C23_refuted"
   ],
   "note": "invariants over histories; refuted. Not covered, or false: the copies made by `surrogate_loss`"
  },
  {
   "property": "C24",
   "status": "proved",
   "theorems": [
    "Storch.C24_rejects",
    "Storch.C24_topological"
   ],
   "note": "loop invariants"
  },
  {
   "property": "C25",
   "status": "proved",
   "theorems": [
    "Storch.C25_labels",
    "Storch.C25_lines",
    "Storch.C25_numbers"
   ],
   "note": "invariant on name counters"
  },
  {
   "property": "C26",
   "status": "proved",
   "theorems": [
    "Storch.C26_contexts"
   ],
   "note": "induction on programs"
  },
  {
   "property": "C27",
   "status": "partial",
   "theorems": [
    "Storch.C27_falls_through_partial",
    "Storch.C27_nested_refuted",
    "Storch.C27_raises_refuted",
    "Storch.C27_refuted",
    "Storch.C27_stays_off_partial"
   ],
   "note": "refuted. Not covered, or false: bodies that raise; nested blocks"
  },
  {
   "property": "C28",
   "status": "partial",
   "theorems": [
    "Storch.C28_refuted",
    "Storch.C28_rejected_partial",
    "Storch.C28_returned_partial"
   ],
   "note": "simulation: stochastic calls inside deterministic ones equal `raise`; refuted for sampling; for what a function returns, induction over the outputs. Not covered, or false: sampling from a distribution inside a deterministic function"
  },
  {
   "property": "C29",
   "status": "proved",
   "theorems": [
    "Storch.C29_accepted",
    "Storch.C29_registry",
    "Storch.C29_rejected",
    "Storch.C29_value_errors"
   ],
   "note": "induction on histories"
  },
  {
   "property": "C30",
   "status": "proved",
   "theorems": [
    "Storch.C30_completes",
    "Storch.C30_kept",
    "Storch.C30_methods",
    "Storch.C30_slate"
   ],
   "note": "invariants over histories; cleaning terminates"
  },
  {
   "property": "C31",
   "status": "partial",
   "theorems": [
    "Storch.C31_conversions",
    "Storch.C31_exposing_raise_partial",
    "Storch.C31_hidden",
    "Storch.C31_methods_partial",
    "Storch.C31_python_values_raise",
    "Storch.C31_refuted"
   ],
   "note": "all names, all results of torch; refuted for `normal_`. Not covered, or false: `normal_` (a missing comma)"
  },
  {
   "property": "C32",
   "status": "proved",
   "theorems": [
    "Storch.C32_all_orders",
    "Storch.C32_derivative",
    "Storch.C32_value"
   ],
   "note": "iterated derivatives"
  },
  {
   "property": "C33",
   "status": "partial",
   "theorems": [
    "Storch.C33_methods_partial",
    "Storch.C33_more_partial",
    "Storch.C33_value_partial",
    "Storch.SurrogateCase.C33_refuted"
   ],
   "note": "denotation of the loss as a finite sum; refuted. Not covered, or false: costs that lack a plate of a stochastic tensor above them, when the weights of that plate are a storch tensor or do not sum to one; baselines when a plate with a storch weight is averaged before the estimator sees the cost"
  },
  {
   "property": "C34",
   "status": "proved",
   "theorems": [
    "Storch.C34_all_orders",
    "Storch.C34_expected_loss",
    "Storch.C34_programs",
    "Storch.C34_programs_all_orders"
   ],
   "note": "induction on the program: expected loss = expected cost as functions of the parameters"
  },
  {
   "property": "C35",
   "status": "proved",
   "theorems": [
    "Storch.C35_one_sample",
    "Storch.C35_programs",
    "Storch.C35_value"
   ],
   "note": "pairing of samples in finite sums"
  },
  {
   "property": "C36",
   "status": "partial",
   "theorems": [
    "Storch.BernoulliCase.C36_refuted",
    "Storch.C36_bias_partial"
   ],
   "note": "exact bias; refuted. Not covered, or false: the current cost is part of the average"
  },
  {
   "property": "C37",
   "status": "partial",
   "theorems": [
    "Storch.C37_gradient_partial",
    "Storch.C37_pathwise_partial",
    "Storch.UniformCase.C37_refuted"
   ],
   "note": "invariant of C20; refuted. Not covered, or false: the pathwise gradient is dropped / counted with the score"
  },
  {
   "property": "C38",
   "status": "partial",
   "theorems": [
    "Storch.C38_budget",
    "Storch.C38_expectation",
    "Storch.C38_joint_loss",
    "Storch.C38_loss",
    "Storch.C38_outcomes_partial",
    "Storch.C38_sum_to_one",
    "Storch.EnumCase.C38_refuted"
   ],
   "note": "product enumeration, joint loss of several variables. Not covered, or false: supports with one element (refuted); several event dimensions (C39)"
  },
  {
   "property": "C39",
   "status": "partial",
   "theorems": [
    "Storch.C39_scalar_partial",
    "Storch.EnumCase.C39_refuted_event",
    "Storch.EnumCase.C39_refuted_plate",
    "Storch.EnumCase.C39_refuted_raises"
   ],
   "note": "refuted in three ways; for scalar variables the number of plates that the code subtracts does not matter (`C39_scalar_partial`). Not covered, or false: several event dimensions and vectors below a plate of size one (refuted)"
  },
  {
   "property": "C40",
   "status": "partial",
   "theorems": [
    "Storch.C40_all_orders_partial",
    "Storch.C40_expected_loss_partial",
    "Storch.C40_library_orders_partial",
    "Storch.C40_library_partial",
    "Storch.C40_plate_dims_refuted",
    "Storch.C40_proposal_refuted",
    "Storch.ImportanceCase.C40_refuted"
   ],
   "note": "change of measure in finite sums; the loss of the library run with its derivatives of all orders. Not covered, or false: event dimensions (refuted), proposals with plates of their own (refuted: raises for two samples or more), one sample"
  },
  {
   "property": "C41",
   "status": "partial",
   "theorems": [
    "Storch.Decode.C41_dependent_refuted",
    "Storch.Decode.C41_partial",
    "Storch.Decode.C41_total_partial",
    "Storch.Decode.ISCase.C41_events_refuted"
   ],
   "note": "induction on steps. Not covered, or false: event dimensions; distributions that depend on the sequence (refuted)"
  },
  {
   "property": "C42",
   "status": "partial",
   "theorems": [
    "Storch.C42_event_refuted",
    "Storch.C42_expectation_partial",
    "Storch.C42_logistic_partial",
    "Storch.C42_weights"
   ],
   "note": "integrals with the reflection of the noise. Not covered, or false: event dimensions (refuted); several variables"
  },
  {
   "property": "C43",
   "status": "partial",
   "theorems": [
    "Storch.C43_network_refuted",
    "Storch.C43_rebar_partial",
    "Storch.C43_rows",
    "Storch.C43_scalar_refuted",
    "Storch.C43_value_partial",
    "Storch.C43_weights"
   ],
   "note": "algebra on the denotation of the estimator. Not covered, or false: variables without event dimensions; per-sample control networks with rebar (refuted)"
  },
  {
   "property": "C44",
   "status": "partial",
   "theorems": [
    "Storch.Decode.C44_constructed",
    "Storch.Decode.C44_different_partial",
    "Storch.Decode.C44_extends_partial",
    "Storch.Decode.C44_total_partial",
    "Storch.Decode.DecodeCase.C44_events_refuted",
    "Storch.Decode.DecodeCase.C44_single_refuted"
   ],
   "note": "induction on steps, for every noise. Not covered, or false: independent dimensions with few outcomes, single outcomes (refuted)"
  },
  {
   "property": "C45",
   "status": "partial",
   "theorems": [
    "Storch.Decode.C45_montecarlo_last",
    "Storch.Decode.C45_partial",
    "Storch.Decode.DecodeCase.C45_refuted"
   ],
   "note": "induction on steps. Not covered, or false: Monte Carlo decoding (refuted)"
  },
  {
   "property": "C46",
   "status": "partial",
   "theorems": [
    "Storch.AncestralCase.C46_refuted",
    "Storch.AncestralCase.C46_scalar_refuted",
    "Storch.C46_descendants_partial",
    "Storch.C46_montecarlo_partial",
    "Storch.C46_next_step_partial",
    "Storch.C46_read_partial"
   ],
   "note": "induction on steps. Not covered, or false: selections between that are not idempotent; scalars (refuted)"
  },
  {
   "property": "C47",
   "status": "partial",
   "theorems": [
    "Storch.Decode.C47_partial",
    "Storch.Decode.C47_single_refuted"
   ],
   "note": "real analysis. Not covered, or false: a single sequence (refuted)"
  },
  {
   "property": "C48",
   "status": "partial",
   "theorems": [
    "Storch.Decode.C48_enumerated",
    "Storch.Decode.C48_expectation_partial",
    "Storch.Decode.C48_refuted",
    "Storch.Decode.C48_samples_partial",
    "Storch.Decode.C48_samples_refuted",
    "Storch.Decode.C48_weights"
   ],
   "note": "finite sums; Gumbel-max integral. Not covered, or false: several variables (refuted)"
  },
  {
   "property": "C49",
   "status": "proved",
   "theorems": [
    "Storch.Gumbel.C49_below",
    "Storch.Gumbel.C49_log1mexp",
    "Storch.Gumbel.C49_max",
    "Storch.Gumbel.C49_order"
   ],
   "note": "real analysis"
  },
  {
   "property": "C50",
   "status": "proved",
   "theorems": [
    "Storch.Gumbel.C50_argmax",
    "Storch.Gumbel.C50_normalised"
   ],
   "note": "real analysis"
  },
  {
   "property": "C51",
   "status": "partial",
   "theorems": [
    "Storch.Gumbel.C51_refuted",
    "Storch.Gumbel.C51_zero_partial"
   ],
   "note": "refuted for every probability up to 1/3. Not covered, or false: hard sample 1"
  },
  {
   "property": "C52",
   "status": "partial",
   "theorems": [
    "Storch.C52_bounded_partial",
    "Storch.C52_decreases_partial",
    "Storch.C52_refuted",
    "Storch.C52_settles_partial"
   ],
   "note": "induction on updates; refuted. Not covered, or false: the minimum itself"
  },
  {
   "property": "C53",
   "status": "proved",
   "theorems": [
    "Storch.C53_accumulates",
    "Storch.C53_cleaned",
    "Storch.C53_hooked"
   ],
   "note": "induction on events"
  },
  {
   "property": "C54",
   "status": "proved",
   "theorems": [
    "Storch.Decode.C54_reset_restores",
    "Storch.Decode.C54_same_decoding"
   ],
   "note": "induction on calls, per class"
  },
  {
   "property": "C55",
   "status": "partial",
   "theorems": [
    "Storch.C55_unmixed_partial",
    "Storch.MixedCase.C55_refuted"
   ],
   "note": "induction on programs; refuted. Not covered, or false: models that mix one and several samples"
  },
  {
   "property": "C56",
   "status": "partial",
   "theorems": [
    "Storch.C56_refuted",
    "Storch.C56_unchecked_partial"
   ],
   "note": "invariant of C20; refuted. Not covered, or false: the check"
  },
  {
   "property": "C57",
   "status": "partial",
   "theorems": [
    "Storch.BernoulliCase.C57_refuted",
    "Storch.C57_expected_partial",
    "Storch.C57_orders_partial"
   ],
   "note": "expectation of the loss in closed form (expected cost minus the chi-square divergence times the cost); derivatives of order n; refuted with a second derivative. Not covered, or false: several variables with baselines; moving averages"
  },
  {
   "property": "C59",
   "status": "partial",
   "theorems": [
    "Storch.Decode.C59_mc_refuted",
    "Storch.Decode.C59_mc_single_refuted",
    "Storch.Decode.C59_partial",
    "Storch.Decode.C59_raoblackwell_refuted",
    "Storch.Decode.EosCase.C59_refuted",
    "Storch.Decode.EosCase.C59_zero_refuted"
   ],
   "note": "induction on steps. Not covered, or false: fewer than `k` sequences; token zero; Rao-Blackwellised sampling (refuted)"
  },
  {
   "property": "C60",
   "status": "partial",
   "theorems": [
    "Storch.Decode.C60_refuted"
   ],
   "note": "integral over the noise; refuted"
  },
  {
   "property": "C62",
   "status": "partial",
   "theorems": [
    "Storch.C62_no_event_refuted",
    "Storch.C62_partial",
    "Storch.C62_refuted",
    "Storch.C62_round_refuted",
    "Storch.C62_two_plates_refuted"
   ],
   "note": "rows and index from the promises of `torch.unique`; `undo_unique` raises on every tensor: names of plates after one and two passes of the loop. Not covered, or false: the round trip (refuted for every tensor with a plate and every function of the unique samples); two plates; tensors without event dimensions (both refuted)"
  },
  {
   "property": "C63",
   "status": "partial",
   "theorems": [
    "Storch.C63_enumerated",
    "Storch.C63_partial",
    "Storch.C63_refuted"
   ],
   "note": "loss in closed form; Gumbel-max integral; derivatives of all orders. Not covered, or false: samples of integer type (refuted); several variables (C48 refuted)"
  },
  {
   "property": "C64",
   "status": "partial",
   "theorems": [
    "Storch.C64_gradient_partial",
    "Storch.C64_loss_partial",
    "Storch.C64_refuted",
    "Storch.C64_scaling"
   ],
   "note": "loss and gradient in closed form; refuted for every law of the random numbers. Not covered, or false: the cost is multiplied in twice (refuted); several variables"
  },
  {
   "property": "C65",
   "status": "proved",
   "theorems": [
    "Storch.C65_decides",
    "Storch.C65_one"
   ],
   "note": "case analysis, for any plates"
  },
  {
   "property": "C61",
   "status": "partial",
   "theorems": [
    "Storch.C61_law_partial",
    "Storch.C61_refuted",
    "Storch.C61_sample_partial",
    "Storch.C61_scalar_refuted"
   ],
   "note": "closed form of samples, integral over the noise; refuted on exact dual numbers. Not covered, or false: the estimator is biased in value and gradient (refuted); raises without event dimensions (refuted)"
  },
  {
   "property": "C67",
   "status": "partial",
   "theorems": [
    "Storch.C67_complete_partial",
    "Storch.C67_first_refuted",
    "Storch.C67_same_refuted",
    "Storch.C67_shared_refuted",
    "Storch.C67_sound",
    "Storch.C67_stochastic",
    "Storch.C67_walk"
   ],
   "note": "induction on the walk with the invariant of visited nodes; induction on the search. Not covered, or false: the first input is never found; inputs with a common node; inputs equal to the output (all refuted)"
  },
  {
   "property": "C70",
   "status": "partial",
   "theorems": [
    "Storch.C70_empty_refuted",
    "Storch.C70_empty_total_refuted",
    "Storch.C70_guard",
    "Storch.C70_logsumexp_partial",
    "Storch.C70_mean_partial",
    "Storch.C70_one_refuted",
    "Storch.C70_sum_partial"
   ],
   "note": "induction on the list of dimensions, entries by index. Not covered, or false: empty lists and plates with one sample (refuted)"
  },
  {
   "property": "C58",
   "status": "partial",
   "theorems": [
    "Storch.C58_clean_keeps_partial",
    "Storch.C58_first_order_partial",
    "Storch.C58_refuted"
   ],
   "note": "invariant over events; refuted. Not covered, or false: gradients with a graph (refuted)"
  },
  {
   "property": "C69",
   "status": "partial",
   "theorems": [
    "Storch.C69_dims_refuted",
    "Storch.C69_mean_partial",
    "Storch.C69_none_partial",
    "Storch.C69_scalar_refuted",
    "Storch.C69_sum_partial"
   ],
   "note": "values per sample by C05 and C70; refuted. Not covered, or false: `dims` and inputs without event dimensions (refuted); `weight`"
  },
  {
   "property": "C66",
   "status": "partial",
   "theorems": [
    "Storch.Decode.C66_expectation_partial",
    "Storch.Decode.C66_limit_partial",
    "Storch.Decode.C66_series_refuted",
    "Storch.Decode.C66_weights_partial"
   ],
   "note": "the sums as Riemann sums; dominated convergence in the number of points and the summand 1e-6 jointly; law of the top-k Gumbel variables by integration; recursion of the law of drawing without replacement; refuted. Not covered, or false: the series for large arguments (refuted); sets of all sequences; several variables for the expectation"
  },
  {
   "property": "C68",
   "status": "partial",
   "theorems": [
    "Storch.C68_biased_refuted",
    "Storch.C68_gradient_partial",
    "Storch.C68_loss_partial",
    "Storch.C68_mean_partial",
    "Storch.C68_nobaseline_refuted"
   ],
   "note": "closed form of the loss through the storch operations; derivative of the control variate; law of the top-k Gumbel variables; limits of the sums by dominated convergence; integrals of a concrete distribution; refuted. Not covered, or false: the baseline of the code is biased (refuted); `use_baseline=False` raises (refuted); sets of all values; several variables"
  },
  {
   "property": "C71",
   "status": "proved",
   "theorems": [
    "Storch.C71_all_orders",
    "Storch.C71_mixed"
   ],
   "note": "induction on the program (plates, values and weights of every variable), the loss as a weighted sum over positions, exchange of the sums over enumerated values with the expectation over samples and noise; derivatives of a finite sum; the expected cost is specified separately, as the mean over the runs of the statements. Not covered, or false: distributions computed both from variables with one sample and from variables with several (C55); enumerated variables with one value (C38); values of probability zero of enumerated variables; noise with infinitely many values (C74 for the gradient); baselines (C57)"
  },
  {
   "property": "C72",
   "status": "proved",
   "theorems": [
    "Storch.C72_gradient",
    "Storch.C72_value"
   ],
   "note": "the run does not read the law of the noise, so the closed form of C71 gives the loss as an average over entries of the noise tensors; Bochner integrals of these averages; differentiation under the integral by domination; the values are specified separately by running the statements on one noise vector; independent noise (infinite product) is shown to meet the hypothesis. Not covered, or false: distributions computed both from variables with one sample and from variables with several (C55); programs that also score or enumerate variables are C74; derivatives of higher order (C71, for noise with finitely many values)"
  },
  {
   "property": "C73",
   "status": "partial",
   "theorems": [
    "Storch.C73_sampled",
    "Storch.Params.C73_conflict_refuted",
    "Storch.Params.C73_dictionary",
    "Storch.Params.C73_partial",
    "Storch.Params.C73_refuted"
   ],
   "note": "induction on the nesting (the innermost level that has the key), invariant of the loop over the parameters; refuted. Not covered, or false: distributions held in other ways than `base_dist`, as mixtures; levels that use one name for two tensors (both refuted)"
  },
  {
   "property": "C74",
   "status": "proved",
   "theorems": [
    "Storch.C74_gradient",
    "Storch.C74_value"
   ],
   "note": "for one noise vector the program is one of C71 whose noise has one value; the average over the samples becomes a sum over runs of joint probability times cost at entries of the noise tensors; each entry has the law of the noise, so this integrates to the expected cost; every term of the loss is a multiple of such a product, hence differentiable; differentiation under the integral by domination; the mean over the runs for a given noise is specified separately. Not covered, or false: distributions computed both from variables with one sample and from variables with several (C55); enumerated variables with one value (C38); sampled or enumerated values of probability zero; baselines (C57); derivatives of higher order (C71, for noise with finitely many values)"
  },
  {
   "property": "C75",
   "status": "partial",
   "theorems": [
    "Storch.Gumbel.C75_bernoulli_refuted",
    "Storch.Gumbel.C75_law",
    "Storch.Gumbel.C75_resample"
   ],
   "note": "change of variables on the unit cube; the bound is the probability of clamping. Not covered, or false: Bernoulli distributions (refuted)"
  },
  {
   "property": "C76",
   "status": "partial",
   "theorems": [
    "Storch.C76_bernoulli_refuted",
    "Storch.C76_regular",
    "Storch.C76_unbiased"
   ],
   "note": "the run of the program computes the loss; the law of the conditional samples (C75) gives the mean of the control variate; differentiation under the integral with a bound by the logarithms of exponential variables. Not covered, or false: Bernoulli variables (refuted, for the term of one sample), rebar, parents"
  },
  {
   "property": "C77",
   "status": "partial",
   "theorems": [
    "Storch.C77_relaxed",
    "Storch.C77_straight",
    "Storch.C77_straight_mean",
    "Storch.C77_straight_mean_bernoulli",
    "Storch.C77_straight_refuted"
   ],
   "note": "the run computes the loss; differentiation under the integral on the compact cube of clamped numbers; Gumbel-max law for the quantized samples. Not covered, or false: the last part is refuted (straight-through gradient biased); parents; the clamping of random numbers for the mean of straight-through categorical samples"
  },
  {
   "property": "C78",
   "status": "partial",
   "theorems": [
    "Storch.C78_bitwise_partial",
    "Storch.C78_ne_refuted",
    "Storch.C78_partial",
    "Storch.C78_reflected_partial",
    "Storch.C78_shift_numbers_refuted",
    "Storch.C78_shift_refuted",
    "Storch.C78_unary",
    "Storch.OperatorCase.C78_refuted"
   ],
   "note": "C05 for the wrapped functions. Not covered, or false: `<<` (refuted: operands exchanged, raises for numbers), the bitwise operators on integers (refuted: logical functions), `!=` (refuted: raises), `@`"
  },
  {
   "property": "C79",
   "status": "partial",
   "theorems": [
    "Storch.Decode.C79_last_partial",
    "Storch.Decode.C79_partial",
    "Storch.Decode.C79_start_refuted",
    "Storch.Decode.FinishedCase.C79_events_refuted",
    "Storch.Decode.FinishedCase.C79_refuted",
    "Storch.Decode.FinishedCase.C79_zero_refuted"
   ],
   "note": "the invariant of C59: after `k` sequences exist, a sequence contains the token if it ends with it. Not covered, or false: first variables with fewer than `k` outcomes, variables with independent dimensions, `all_finished` before the first variable, the token 0 (all refuted)"
  },
  {
   "property": "C80",
   "status": "partial",
   "theorems": [
    "Storch.Decode.C80_partial",
    "Storch.Decode.C80_refuted"
   ],
   "note": "invariant: every variable has one token per cell in each sequence; induction over the tensors that are joined. Not covered, or false: variables without independent dimensions (refuted: raises); `finished=True`"
  },
  {
   "property": "C81",
   "status": "partial",
   "theorems": [
    "Storch.RelaxUpdate.C81_call_partial",
    "Storch.RelaxUpdate.C81_logits_refuted",
    "Storch.RelaxUpdate.C81_partial",
    "Storch.RelaxUpdate.C81_several_refuted",
    "Storch.RelaxUpdate.C81_unused_refuted",
    "Storch.RelaxUpdate.Case.C81_refuted"
   ],
   "note": "the loop over the parents adds the derivatives of their mean squares; induction over the nodes that `backward` visits. Not covered, or false: several costs below one tensor (refuted: counted once for each cost), several tensors of one method (refuted: wiped), control parameters that are not used, distributions with logits (both refuted)"
  },
  {
   "property": "C82",
   "status": "partial",
   "theorems": [
    "Storch.C82_bias_refuted",
    "Storch.C82_partial",
    "Storch.RelaxTrainCase.C82_refuted"
   ],
   "note": "the closed form of the loss of C76 with the values that `magic_box` and `detach` fix; derivative of a product with a factor `exp(l - l0)`. Not covered, or false: refuted: an extra term remains, the derivative of the log-probability times the change of the control variate; a bias of the control network is never trained (`C82_bias_refuted`)"
  },
  {
   "property": "C83",
   "status": "partial",
   "theorems": [
    "Storch.Decode.C83_returns",
    "Storch.Decode.C83_rows_partial",
    "Storch.Decode.C83_values_partial"
   ],
   "note": "simulation: every tensor operation acts on the rows as the operation of the row model does; induction over the event cells; that no operation raises by an invariant of shapes and index bounds. Not covered, or false: distributions that carry the plates of earlier variables in another order (missing plates: C86); that masks of finished samples never raise"
  },
  {
   "property": "C84",
   "status": "partial",
   "theorems": [
    "Storch.C84_gradients_partial",
    "Storch.C84_refuted",
    "Storch.C84_returns_only"
   ],
   "note": "induction over the inputs; the checks of the constructor pass because a gradient has the shape of its input (C01), the plates do not conflict (C04); the invariants of C22 to C30 are proved again with the new command. Not covered, or false: inputs without a name and inputs without a gradient raise (`C84_refuted`); `outputs` given as a single tensor or containing torch tensors, and `inputs` given as a single tensor, are not modelled"
  },
  {
   "property": "C85",
   "status": "partial",
   "theorems": [
    "Storch.Decode.C85_orders_partial",
    "Storch.Decode.C85_refuted",
    "Storch.Decode.C85_same_order_partial"
   ],
   "note": "rank of a masked place in the order of memory (induction), permutation by equal orders is the identity; when the orders agree is proved from the plates of the distribution (`C85_orders_partial`). Not covered, or false: masks and perturbed log-probabilities with different orders of the plates (`C85_refuted`)"
  },
  {
   "property": "C86",
   "status": "partial",
   "theorems": [
    "Storch.Decode.C86_conditional_refuted",
    "Storch.Decode.C86_returns",
    "Storch.Decode.C86_rows_partial",
    "Storch.Decode.C86_values_partial"
   ],
   "note": "decoding is shown equal to decoding with the distribution expanded over the missing plates (simulation, induction over event cells), to which C83 applies. Not covered, or false: distributions that depend on samples of the decoder: `gather` always raises (`C86_conditional_refuted`); plates in another order"
  },
  {
   "property": "C87",
   "status": "partial",
   "theorems": [
    "Storch.Samplers.C87_accepts",
    "Storch.Samplers.C87_accepts_default",
    "Storch.Samplers.C87_classes",
    "Storch.Samplers.C87_decoder_refuted",
    "Storch.Samplers.C87_default_partial",
    "Storch.Samplers.C87_distinct",
    "Storch.Samplers.C87_estimates_partial",
    "Storch.Samplers.C87_failed_refuted",
    "Storch.Samplers.C87_given_partial",
    "Storch.Samplers.C87_importance_refuted",
    "Storch.Samplers.C87_own",
    "Storch.Samplers.C87_shared_refuted"
   ],
   "note": "frame property of every constructor (it changes only the object it was given), induction over programs; classes of objects never change; the constructors return exactly for the arguments of a table, and make estimators with new numbers. Not covered, or false: objects given to several estimators or to a constructor that raised, importance sampling with reparameterisation (all refuted)"
  },
  {
   "property": "C88",
   "status": "partial",
   "theorems": [
    "Storch.C88_bernoulli_refuted",
    "Storch.C88_regular",
    "Storch.C88_relax",
    "Storch.C88_unbiased"
   ],
   "note": "the surrogate loss is computed exactly: it is that of RELAX without rebar with the cost added to the control network; then the argument of C76 (conditional law, differentiation under the expectation). Not covered, or false: Bernoulli variables (refuted for one sample: the conditional samples have the wrong law), variables with outer plates"
  },
  {
   "property": "C89",
   "status": "partial",
   "theorems": [
    "Storch.C89_event",
    "Storch.C89_rebar_refuted",
    "Storch.C89_relax",
    "Storch.C89_rows",
    "Storch.C89_sizes",
    "Storch.C89_vector_refuted"
   ],
   "note": "the steps one by one through the wrapper with one storch argument; row-major positions are inverted; for sizes (m, K) the network is `perSample` of a function, which is what C76 and C88 assume of control networks. Not covered, or false: with rebar: refuted (the network gets torch tensors, which have no plate_dims; for numbers above one and several samples the shapes do not fit)"
  },
  {
   "property": "C90",
   "status": "partial",
   "theorems": [
    "Storch.C90_lax_refuted"
   ],
   "note": "the loop over the variables cannot pass a variable whose estimator raises. Not covered, or false: the claim as stated is refuted for every program"
  },
  {
   "property": "C91",
   "status": "partial",
   "theorems": [
    "Storch.C91_fits_partial",
    "Storch.C91_names_partial",
    "Storch.C91_refuted"
   ],
   "note": "every command is a sequence of primitive changes; the invariant holds for each; programs without `denote_independent` on storch tensors never insert into a list. Not covered, or false: `denote_independent` on a storch tensor (refuted: it changes the plates of its argument); for it, the plates are the accepted ones with others in front"
  },
  {
   "property": "C92",
   "status": "partial",
   "theorems": [
    "Storch.C92_gather_partial",
    "Storch.C92_range",
    "Storch.C92_single_refuted"
   ],
   "note": "the position of the plate in the call, the expanded tensors of C06, and for the range check a joint sample for every index. Not covered, or false: one sample: `UnboundLocalError` (refuted); the integer check of torch; ancestral plates"
  },
  {
   "property": "C93",
   "status": "proved",
   "theorems": [
    "Storch.C93_cat",
    "Storch.C93_raises"
   ],
   "note": "the expanded tensors of C06; induction over the list for `torch.cat`; along a plate the result does not fit the plates any more (C01)"
  },
  {
   "property": "C94",
   "status": "partial",
   "theorems": [
    "Storch.C94_one_by_one",
    "Storch.C94_stages_partial",
    "Storch.TowerCase.C94_refuted"
   ],
   "note": "invariant of the stages: the values are the weighted sums over the plates averaged so far; weights that do not read averaged plates can be taken out of the sum. Not covered, or false: stages with a plate and some but not all of its ancestors (refuted: plates are left); a plate whose weights depend on a plate of an earlier stage (refuted: raises)"
  },
  {
   "property": "C95",
   "status": "partial",
   "theorems": [
    "Storch.C95_bernoulli_refuted",
    "Storch.C95_law",
    "Storch.C95_rows_partial",
    "Storch.C95_sparsemax",
    "Storch.C95_straight_refuted"
   ],
   "note": "the maximiser is unique and has a threshold form (intermediate value theorem, Bernoulli inequality); the Gumbel-max law for the index of the largest entry. Not covered, or false: Bernoulli variables (refuted: entmax runs over the variables, or over the samples); straight_through (refuted: it is ignored); storch parents; gradients"
  },
  {
   "property": "C96",
   "status": "partial",
   "theorems": [
    "Storch.C96_relaxed_partial"
   ],
   "note": "entmax is Lipschitz by strong concavity of the entropy, hence differentiable almost everywhere (Rademacher) under the law of the Gumbel variables; dominated differentiation. Not covered, or false: alpha above two (entmax is then not Lipschitz), gradients to a learned alpha, storch parents"
  },
  {
   "property": "C97",
   "status": "partial",
   "theorems": [
    "Storch.C97_biased_refuted",
    "Storch.C97_loss_partial",
    "Storch.C97_mean_partial",
    "Storch.C97_samples"
   ],
   "note": "the run of the decoder gives an injective choice of outcomes, the loss is computed entry by entry; expectations by the law of the top Gumbel variables, the law of conditional samples and dominated differentiation; `C97_biased_refuted` gives a case in which the expected gradient is too small. Not covered, or false: the gradient lacks the part that comes from the probabilities of the outcomes (`C97_mean_partial` says which part); several variables, plates, as many samples as outcomes in the expectation"
  },
  {
   "property": "C98",
   "status": "partial",
   "theorems": [
    "Storch.C98_exchanged_refuted",
    "Storch.C98_named",
    "Storch.C98_plate_partial",
    "Storch.C98_plates_refuted",
    "Storch.C98_single_plates_partial",
    "Storch.C98_single_refuted",
    "Storch.C98_torch_named",
    "Storch.C98_torch_partial",
    "Storch.C98_unequal_refuted"
   ],
   "note": "the transposed tensor is read at the index in which two positions are swapped; the check of the constructor succeeds; the mean by the theorem about reducing plates; `C98_exchanged_refuted` holds for every tensor with two plates of equal size; name and parents for every call that succeeds (`C98_named`, `C98_torch_named`). Not covered, or false: storch tensors with several plates of more than one sample, or one such plate and a dimension further right: `transpose` swaps two dimensions where one should be moved (`C98_exchanged_refuted`, `C98_unequal_refuted`, `C98_plates_refuted`); dimensions of size one (`C98_single_refuted`); given weights; negative dimensions"
  },
  {
   "property": "C99",
   "status": "partial",
   "theorems": [
    "Storch.C99_batch_loss_partial",
    "Storch.C99_batch_unbiased_partial",
    "Storch.C99_given",
    "Storch.C99_loss_partial",
    "Storch.C99_moving_bias_partial",
    "Storch.C99_moving_loss_partial",
    "Storch.C99_unbiased_partial",
    "Storch.SeqLossCase.C99_moving_refuted"
   ],
   "note": "what an estimator is given by unfolding the three loops over plates; the sum of the log-probabilities by induction over the variables, each addition with plates of two different steps; the expectation by summing out all but one of the independent draws (`mean_of_one`) and the derivative of the logarithms; with the batch average baseline, the control variates by the same induction (`batch_loop`), their derivative, and the mean zero of a score times the costs of the other draws (`mean_others`); with the moving average the same with one buffer for all variables (`movingVars`), which gives the exact bias. Not covered, or false: decoders that select samples, which lose the pairing of samples already when tensors without event dimensions are combined (`C46_scalar_refuted`); further plates; probabilities that are zero; with the moving average baseline unbiasedness fails (`C99_moving_refuted`)"
  },
  {
   "property": "C100",
   "status": "partial",
   "theorems": [
    "Storch.Decode.C100_foreign_refuted",
    "Storch.Decode.C100_history_partial",
    "Storch.Decode.C100_montecarlo_refuted",
    "Storch.Decode.C100_reset_refuted",
    "Storch.Decode.C100_swor_iff",
    "Storch.Decode.C100_swor_partial"
   ],
   "note": "the loop by induction over the plates; the chain of plates of a decoder by induction over the variables decoded (`runSwor_chain`), and by induction over any history of calls, raising ones and `reset` included (`C100_history_partial`, from bounds on the rows through the loop of `decode`); the refutations hold for all states and all variables. Not covered, or false: only the check is stated here, what decoding does with an accepted plate is C44, C46, C83; Monte Carlo and importance decoders refuse their own variables (`C100_montecarlo_refuted`); plates of another decoder and of the sequence before a reset are accepted (`C100_foreign_refuted`, `C100_reset_refuted`)"
  },
  {
   "property": "C101",
   "status": "partial",
   "theorems": [
    "Storch.C101_replaced",
    "Storch.C101_single_refuted",
    "Storch.C101_unique_partial"
   ],
   "note": "`has_shrunken` is shown equal to the inductive relation `Replaced` by mutual induction over the tree of plates; the plates of the result of `unique` from its definition. Not covered, or false: plates with one sample are removed by `unique` without being recorded, so they are accepted next to the unique samples (`C101_single_refuted`); a plate of the same name that differs from the replaced one in size or weight is not the replaced plate, for it neither outcome is stated; the check of two plates of one name is C04"
  },
  {
   "property": "C102",
   "status": "partial",
   "theorems": [
    "Storch.C102_cost_refuted",
    "Storch.C102_event_refuted",
    "Storch.C102_square_partial"
   ],
   "note": "the refutations from the shapes: the constructor requires the sizes of all plates as a prefix of the shape (`checkPlates_ok_iff`), and one dimension is missing; `C102_square_partial` by evaluation for all sizes and the round trip of `reshape`, with further plates of one sample. Not covered, or false: the claim is false for every cost (`C102_cost_refuted`) and for what `unique` returns unless the first event dimension has the size of the unique plate (`C102_event_refuted`); the one size for which undoing returns is `C102_square_partial`, where the event dimension is then taken for the unique plate; plates of size one among the replaced ones are excluded, since `unique` does not record them"
  },
  {
   "property": "C103",
   "status": "partial",
   "theorems": [
    "Storch.Decode.C103_construct_partial",
    "Storch.Decode.C103_first_refuted",
    "Storch.Decode.C103_refuted"
   ],
   "note": "by cases over the number of values of the variable. Not covered, or false: the claim is false: `select_samples` is unfinished and no step returns (`C103_refuted`, `C103_first_refuted` with the exception for each number of values); what is true is the constructor (`C103_construct_partial`); other plates are left out"
  }
 ]
}