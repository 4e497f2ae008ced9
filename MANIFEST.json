{
 "claims": [
  {
   "property": "C01",
   "status": "proved",
   "theorems": [
    "Verif.C01_blank_labels",
    "Verif.C01_constructed_chain_is_valid",
    "Verif.C01_constructor_iff",
    "Verif.C01_constructor_default_labels",
    "Verif.C01_rejects_non_square"
   ],
   "note": "Exact arithmetic with numpy's isclose tolerance; value universe PyVal covers numbers, strings, lists, numeric arrays, None and opaque objects."
  },
  {
   "property": "C02",
   "status": "partial",
   "theorems": [
    "Verif.C02_hidden_bypass_iff",
    "Verif.C02_validation_can_be_bypassed",
    "Verif.C02_validation_runs_partial",
    "Verif.C02_bypass_iff"
   ],
   "note": "The full property is false of the code: validation is skipped for callers whose name equals a generator name (C02_validation_can_be_bypassed). Proved for every other caller."
  },
  {
   "property": "C03",
   "status": "proved",
   "theorems": [
    "Verif.C03_integer_limits",
    "Verif.C03_float_limits",
    "Verif.C03_steps_positive",
    "Verif.C03_significance"
   ],
   "note": "Finite floats, nan and inf are distinguished; limits as used by the library."
  },
  {
   "property": "C04",
   "status": "partial",
   "theorems": [
    "Verif.C04_single_label",
    "Verif.C04_label_lists",
    "Verif.C04_single_value",
    "Verif.C04_minimum_not_enforced",
    "Verif.C04_sequences"
   ],
   "note": "Full statement for single states, lists and sequences; the minimum number of states is not enforced when a single state is passed (C04_minimum_not_enforced)."
  },
  {
   "property": "C05",
   "status": "proved",
   "theorems": [
    "Verif.C05_partitions_sound",
    "Verif.C05_each_state_in_one_group",
    "Verif.C05_empty_groups_accepted"
   ],
   "note": "Accepted partitions cover the states once and in order; empty groups are accepted (C05_empty_groups_accepted)."
  },
  {
   "property": "C06",
   "status": "partial",
   "theorems": [
    "Verif.C06_from_matrix_partial",
    "Verif.C06_from_matrix_accepts",
    "Verif.C06_tiny_rows_become_uniform",
    "Verif.C06_from_graph_partial"
   ],
   "note": "The stated normalisation holds for rows whose sum exceeds 1e-8; smaller non-zero rows are replaced by uniform rows (C06_tiny_rows_become_uniform). Edge weights of graphs are finite."
  },
  {
   "property": "C07",
   "status": "proved",
   "theorems": [
    "Verif.C07_gamblers_ruin",
    "Verif.C07_accepts"
   ],
   "note": "All accepted sizes and winning probabilities; absorption from every state."
  },
  {
   "property": "C08",
   "status": "proved",
   "theorems": [
    "Verif.C08_urn_models",
    "Verif.C08_accepts"
   ],
   "note": "Both urn models for every n; stationary laws proved through detailed balance."
  },
  {
   "property": "C09",
   "status": "partial",
   "theorems": [
    "Verif.C09_moran_partial",
    "Verif.C09_negative_probabilities",
    "Verif.C09_mutation_rates_disagree"
   ],
   "note": "Proved for s <= 1 with exact rates; C09_negative_probabilities shows that accepted values s > 1 give negative entries, and C09_mutation_rates_disagree that the downward rate uses the forward mutation rate where the backward one belongs."
  },
  {
   "property": "C10",
   "status": "proved",
   "theorems": [
    "Verif.C10_wright_fisher"
   ],
   "note": "SciPy's binomial pmf is taken to be exact."
  },
  {
   "property": "C11",
   "status": "partial",
   "theorems": [
    "Verif.C11_birth_death_partial",
    "Verif.C11_one_state_chain",
    "Verif.C11_small_probabilities_dropped"
   ],
   "note": "Row-stochastic and tridiagonal for every accepted input; the rates are exactly those given when each of birth, death and holding probability is 0 or above 1e-8. Smaller ones are dropped by the code (C11_small_probabilities_dropped), and one-state chains are accepted (C11_one_state_chain)."
  },
  {
   "property": "C12",
   "status": "partial",
   "theorems": [
    "Verif.C12_bounded_partial",
    "Verif.C12_accepts",
    "Verif.C12_nan_accepted"
   ],
   "note": "Proved for absorbing, reflecting and every finite number in [0,1]; NaN is accepted as a condition (C12_nan_accepted)."
  },
  {
   "property": "C13",
   "status": "proved",
   "theorems": [
    "Verif.C13_lazy",
    "Verif.C13_lazy_long_run",
    "Verif.C13_accepts"
   ],
   "note": "Includes preservation of stationary laws and of the communication structure as stated in the theorems."
  },
  {
   "property": "C14",
   "status": "proved",
   "theorems": [
    "Verif.C14_merge",
    "Verif.C14_accepts"
   ],
   "note": "Convex combination of two chains of the same size; other sizes are rejected; a common stationary law is kept."
  },
  {
   "property": "C15",
   "status": "proved",
   "theorems": [
    "Verif.C15_nth_order",
    "Verif.C15_orders_multiply",
    "Verif.C15_redistribute"
   ],
   "note": "n-th order chain is the matrix power; redistribute equals the row vector times the power, in exact arithmetic."
  },
  {
   "property": "C16",
   "status": "partial",
   "theorems": [
    "Verif.C16_dirichlet_partial",
    "Verif.C16_accepts",
    "Verif.C16_null_draws"
   ],
   "note": "Holds for all draws in [0,1] with a non-null draw in every row. A row of null draws is divided by zero (C16_null_draws)."
  },
  {
   "property": "C17",
   "status": "partial",
   "theorems": [
    "Verif.C17_random_partial",
    "Verif.C17_row_sum_below_one",
    "Verif.C17_assigned_row_raises"
   ],
   "note": "Mask agreement, nonnegativity, unit row sums and the exact number of zeros for every mask and all non-null draws. Rows whose assigned entries sum to one only up to the tolerance are not rescaled (C17_row_sum_below_one), and a fully assigned row with a smaller sum passes validation and then raises (C17_assigned_row_raises)."
  },
  {
   "property": "C18",
   "status": "proved",
   "theorems": [
    "Verif.C18_rouwenhorst",
    "Verif.C18_accepts"
   ],
   "note": "Exact arithmetic over an ordered field; validity, symmetry, binomial stationary law and conditional mean."
  },
  {
   "property": "C19",
   "status": "partial",
   "theorems": [
    "Verif.C19_tauchen_partial",
    "Verif.C19_accepts",
    "Verif.C19_minus_one_raises"
   ],
   "note": "The normal distribution function is any monotone function into [0,1] and the square root any nonnegative function. rho = -1 passes the argument validation and then raises instead of returning a chain (C19_minus_one_raises)."
  },
  {
   "property": "C20",
   "status": "proved",
   "theorems": [
    "Verif.C20_canonical_form"
   ],
   "note": "Exact arithmetic; the communicating classes come from networkx (contract IsClasses). The result is the original chain along a bijection of the states."
  },
  {
   "property": "C21",
   "status": "proved",
   "theorems": [
    "Verif.C21_subchain"
   ],
   "note": "Exact arithmetic. Exact characterisation of when to_subchain succeeds and of its result, including the transitive closure loop."
  },
  {
   "property": "C22",
   "status": "partial",
   "theorems": [
    "Verif.C22_lump_partial",
    "Verif.C22_order_required",
    "Verif.C22_duplicate_labels"
   ],
   "note": "C22_lump_partial: success exactly when strongly lumpable, and the full k-step law, for the partitions the validation accepts. C22_order_required: partitions whose groups are not made of consecutive states are rejected although the chain is lumpable. C22_duplicate_labels: two groups can get the same label. Exact arithmetic: the code compares floating point results with array_equal."
  },
  {
   "property": "C23",
   "status": "partial",
   "theorems": [
    "Verif.C23_consecutive_partial",
    "Verif.C23_consecutive_instance",
    "Verif.C23_missing"
   ],
   "note": "C23_consecutive_partial: exactly the lumpable partitions into groups of consecutive states are listed. C23_missing: a lumpable partition that is not listed."
  },
  {
   "property": "C24",
   "status": "proved",
   "theorems": [
    "Verif.C24_mle",
    "Verif.C24_smoothing_off_by_default",
    "Verif.C24_mle_optimal",
    "Verif.C24_accepts"
   ],
   "note": "Frequencies and optimality against every stochastic matrix. The documented default of the smoothing flag differs from the code (C24_smoothing_off_by_default)."
  },
  {
   "property": "C25",
   "status": "proved",
   "theorems": [
    "Verif.C25_map",
    "Verif.C25_map_optimal",
    "Verif.C25_accepts"
   ],
   "note": "Validity, explicit rows and optimality of the posterior for every accepted hyper-parameter and sequence."
  },
  {
   "property": "C26",
   "status": "partial",
   "theorems": [
    "Verif.C26_accessible_partial",
    "Verif.C26_overflow"
   ],
   "note": "Sound for every size and complete for at most 17 states, which is the best bound; C26_overflow shows an 18-state chain where 64-bit wrap-around makes the answer wrong."
  },
  {
   "property": "C27",
   "status": "proved",
   "theorems": [
    "Verif.C27_communicating_classes",
    "Verif.C27_order_independent"
   ],
   "note": "The strongly connected components come from networkx: a parameter with the contract IsClasses, in any order."
  },
  {
   "property": "C28",
   "status": "proved",
   "theorems": [
    "Verif.C28_states",
    "Verif.C28_classes"
   ],
   "note": "Under the same networkx contract."
  },
  {
   "property": "C29",
   "status": "partial",
   "theorems": [
    "Verif.C29_is_absorbing_partial",
    "Verif.C29_tolerance"
   ],
   "note": "Holds for chains in which the isclose tolerance identifies only exact absorbing states; C29_tolerance shows a chain without absorbing states reported as absorbing."
  },
  {
   "property": "C30",
   "status": "proved",
   "theorems": [
    "Verif.C30_irreducible"
   ],
   "note": "Under the same networkx contract."
  },
  {
   "property": "C31",
   "status": "proved",
   "theorems": [
    "Verif.C31_regular"
   ],
   "note": ""
  },
  {
   "property": "C32",
   "status": "partial",
   "theorems": [
    "Verif.C32_classes_partial",
    "Verif.C32_irreducible_partial",
    "Verif.C32_sorted_labels_partial",
    "Verif.C32_transient_class",
    "Verif.C32_order",
    "Verif.C32_period_reducible"
   ],
   "note": "Proved for irreducible chains, for every recurrent class, and (order and least common multiple) when the labels are in increasing order; C32_transient_class, C32_order and C32_period_reducible show where the code disagrees. networkx results are parameters with the contract Nx.Sound."
  },
  {
   "property": "C33",
   "status": "proved",
   "theorems": [
    "Verif.C33_cyclic_classes",
    "Verif.C33_reducible"
   ],
   "note": "Under the networkx contract Nx.Sound."
  },
  {
   "property": "C34",
   "status": "proved",
   "theorems": [
    "Verif.C34_stationary"
   ],
   "note": "Exact arithmetic; gth_solve is modelled step by step. Existence, positivity, invariance and uniqueness."
  },
  {
   "property": "C35",
   "status": "proved",
   "theorems": [
    "Verif.C35_reducible"
   ],
   "note": "Exact arithmetic; networkx contract IsClasses."
  },
  {
   "property": "C36",
   "status": "proved",
   "theorems": [
    "Verif.C36_monotone"
   ],
   "note": "Exact arithmetic. Both characterisations: monotone functions and the stochastic order of distributions."
  },
  {
   "property": "C37",
   "status": "partial",
   "theorems": [
    "Verif.C37_reversible_partial",
    "Verif.C37_rare_moves"
   ],
   "note": "C37_reversible_partial: exact description of the tolerant test, true under detailed balance, false for several stationary distributions. C37_rare_moves: a chain without detailed balance is reported as reversible because of the absolute tolerance."
  },
  {
   "property": "C38",
   "status": "proved",
   "theorems": [
    "Verif.C38_fundamental_matrix"
   ],
   "note": "Over the reals: the result is the inverse of I minus the transient block and the sum of its powers. None exactly for chains that are not absorbing."
  },
  {
   "property": "C39",
   "status": "partial",
   "theorems": [
    "Verif.C39_absorption_probabilities_partial",
    "Verif.C39_sticky"
   ],
   "note": "C39_absorption_probabilities_partial assumes that no transient state passes the code's tolerance test for absorption. C39_sticky shows that otherwise the result is not a probability."
  },
  {
   "property": "C40",
   "status": "proved",
   "theorems": [
    "Verif.C40_mean_absorption_times"
   ],
   "note": "For every absorbing chain with a transient state the result solves the first-step equations, uniquely."
  },
  {
   "property": "C41",
   "status": "partial",
   "theorems": [
    "Verif.C41_forward_partial",
    "Verif.C41_backward_partial",
    "Verif.C41_disjoint",
    "Verif.C41_small_values"
   ],
   "note": "C41_forward_partial and C41_backward_partial assume that no committor probability lies in (0, 1e-8]. C41_small_values shows that such values are returned as zero."
  },
  {
   "property": "C42",
   "status": "proved",
   "theorems": [
    "Verif.C42_hitting_times"
   ],
   "note": "Under the stated contract of scipy's nnls, which exists_nnls shows to be satisfiable. The tolerance of the code does no harm."
  },
  {
   "property": "C43",
   "status": "proved",
   "theorems": [
    "Verif.C43_hitting_probabilities"
   ],
   "note": "Under the stated contract of scipy's nnls, which exists_nnls shows to be satisfiable."
  },
  {
   "property": "C44",
   "status": "proved",
   "theorems": [
    "Verif.C44_targets",
    "Verif.C44_all_states"
   ],
   "note": "Both with targets (C44_targets) and without (C44_all_states)."
  },
  {
   "property": "C45",
   "status": "partial",
   "theorems": [
    "Verif.C45_recurrence_times_partial",
    "Verif.C45_rare_state"
   ],
   "note": "C45_recurrence_times_partial assumes stationary probabilities above 1e-8. C45_rare_state shows that a rarer state gets the recurrence time zero."
  },
  {
   "property": "C46",
   "status": "proved",
   "theorems": [
    "Verif.C46_expected_rewards"
   ],
   "note": "For all validated arguments."
  },
  {
   "property": "C47",
   "status": "partial",
   "theorems": [
    "Verif.C47_expected_transitions_partial",
    "Verif.C47_wrong_total"
   ],
   "note": "C47_expected_transitions_partial covers one and two steps, and more steps than states if the eigendecomposition is right. C47_wrong_total shows that every other result is wrong."
  },
  {
   "property": "C48",
   "status": "partial",
   "theorems": [
    "Verif.C48_single_state_partial",
    "Verif.C48_all_states",
    "Verif.C48_sets",
    "Verif.C48_set_exceeds_one"
   ],
   "note": "Proved for one first passage state and for no first passage states. C48_sets states what is returned for sets, C48_set_exceeds_one that this is not a distribution."
  },
  {
   "property": "C49",
   "status": "proved",
   "theorems": [
    "Verif.C49_first_passage_reward"
   ],
   "note": "For all validated arguments; rejected combinations are stated too."
  },
  {
   "property": "C50",
   "status": "partial",
   "theorems": [
    "Verif.C50_single_jump_partial",
    "Verif.C50_not_ergodic",
    "Verif.C50_jump",
    "Verif.C50_last_iteration"
   ],
   "note": "C50_single_jump_partial covers jumps of one step, with None if the cutoff is not met within 99 steps. C50_jump and C50_last_iteration show the two failures. The distance is the sum of absolute differences."
  },
  {
   "property": "C51",
   "status": "proved",
   "theorems": [
    "Verif.C51_kemeny_constant"
   ],
   "note": "Trace of the fundamental matrix for absorbing chains, None otherwise."
  },
  {
   "property": "C52",
   "status": "partial",
   "theorems": [
    "Verif.C52_entropy_rate_partial",
    "Verif.C52_zero",
    "Verif.C52_none",
    "Verif.C52_negative",
    "Verif.C52_normalized"
   ],
   "note": "C52_entropy_rate_partial assumes the rate is zero or above 1e-8. C52_negative shows that smaller positive rates get the wrong sign. C52_zero and C52_none hold without restriction; C52_normalized shows that the normalised rate is the quotient of entropy rate and topological entropy, so that the truncation to [0, 1] has no effect."
  },
  {
   "property": "C53",
   "status": "proved",
   "theorems": [
    "Verif.C53_simulate",
    "Verif.C53_next"
   ],
   "note": "rng.choice is a parameter that never returns an index of weight zero; cdfChoice_sound shows that inverse transform sampling satisfies this for every stream of draws."
  },
  {
   "property": "C54",
   "status": "partial",
   "theorems": [
    "Verif.C54_greedy",
    "Verif.C54_single_step_partial",
    "Verif.C54_not_most_probable",
    "Verif.C54_none_though_unique"
   ],
   "note": "C54_single_step_partial is restricted to one step. C54_not_most_probable and C54_none_though_unique show that the claim fails for two steps; C54_greedy states what is returned for any number of steps."
  },
  {
   "property": "C55",
   "status": "proved",
   "theorems": [
    "Verif.C55_sequence_probability",
    "Verif.C55_continuations"
   ],
   "note": ""
  },
  {
   "property": "C56",
   "status": "partial",
   "theorems": [
    "Verif.C56_none",
    "Verif.C56_decode_partial",
    "Verif.C56_impossible",
    "Verif.C56_tiny",
    "Verif.C56_disagrees_with_simulation"
   ],
   "note": "C56_decode_partial assumes that no symbol has conditional probability below 1e-300; C56_tiny shows that sequences of positive likelihood are rejected. C56_none and C56_impossible are unrestricted. The start state emits no symbol in decode; C56_disagrees_with_simulation shows that simulate uses another convention."
  },
  {
   "property": "C57",
   "status": "partial",
   "theorems": [
    "Verif.C57_viterbi_partial",
    "Verif.C57_viterbi_optimal_partial",
    "Verif.C57_none_though_certain",
    "Verif.C57_wrong_value",
    "Verif.C57_wrong_path"
   ],
   "note": "the code also multiplies with the emission probability of the first symbol by the start state; C57_viterbi_partial states what is maximised (up to rounding), C57_viterbi_optimal_partial is the documented claim when all states emit the first symbol with the same probability; C57_none_though_certain, C57_wrong_value, C57_wrong_path show that the documented claim fails"
  },
  {
   "property": "C58",
   "status": "partial",
   "theorems": [
    "Verif.C58_simulate_partial",
    "Verif.C58_next_partial",
    "Verif.C58_zero_draw"
   ],
   "note": "C58_simulate_partial and C58_next_partial assume positive uniform draws; C58_zero_draw shows that the draw 0.0 (which the generator can return) selects an impossible state."
  },
  {
   "property": "C59",
   "status": "partial",
   "theorems": [
    "Verif.C59_restrict_partial",
    "Verif.C59_valid_partial",
    "Verif.C59_accepts",
    "Verif.C59_columns_not_removed",
    "Verif.C59_single_state",
    "Verif.C59_nothing_selected"
   ],
   "note": "C59_restrict_partial and C59_valid_partial assume a removed state, or fewer remaining symbols than states, or all symbols; C59_columns_not_removed shows the failure otherwise (the code compares with e.shape[0]); C59_single_state: a single state is accepted although two are required"
  },
  {
   "property": "C60",
   "status": "proved",
   "theorems": [
    "Verif.C60_estimate",
    "Verif.C60_optimal",
    "Verif.C60_accepts"
   ],
   "note": ""
  },
  {
   "property": "C61",
   "status": "proved",
   "theorems": [
    "Verif.C61_first_order",
    "Verif.C61_homogeneity",
    "Verif.C61_stationarity",
    "Verif.C61_theoretical_compatibility",
    "Verif.C61_markov_property",
    "Verif.C61_accepts"
   ],
   "note": "All five tests. The statistic is nonnegative (or positive infinity, see C77), the tables are the textbook counts, and their totals equal the number of observed transitions or triples. The chi-square distribution function is a parameter assumed to take values in [0, 1]. assess_markov_property drops the last one or two observations, as in the code."
  },
  {
   "property": "C62",
   "status": "proved",
   "theorems": [
    "Verif.C62_dictionary_round_trip",
    "Verif.C62_hmm_dictionary_round_trip",
    "Verif.C62_instance",
    "Verif.C62_hmm_instance"
   ],
   "note": "Both classes, for every object the constructors accept (rows only need to sum to one within tolerance)."
  },
  {
   "property": "C63",
   "status": "partial",
   "theorems": [
    "Verif.C63_txt_partial",
    "Verif.C63_hmm_txt_partial",
    "Verif.C63_json",
    "Verif.C63_hmm_json",
    "Verif.C63_xml_partial",
    "Verif.C63_hmm_xml_partial",
    "Verif.C63_csv",
    "Verif.C63_hmm_csv_partial",
    "Verif.C63_txt_space",
    "Verif.C63_xml_label_changed",
    "Verif.C63_hmm_csv_label_changed",
    "Verif.C63_instance",
    "Verif.C63_txt_instance",
    "Verif.C63_xml_instance"
   ],
   "note": "JSON is proved for both classes and CSV for chains, for every accepted label. TXT is proved for labels without white space, XML for labels without white space at the ends or unusual line ends, HMM CSV for labels without white space at the ends; the negations C63_txt_space, C63_xml_label_changed and C63_hmm_csv_label_changed show that the property fails otherwise. Formatting and parsing of numbers and the csv, json and xml libraries are parameters with contracts."
  },
  {
   "property": "C64",
   "status": "partial",
   "theorems": [
    "Verif.C64_truncated_partial",
    "Verif.C64_other_chain",
    "Verif.C64_instance",
    "Verif.C64_missing_line"
   ],
   "note": "A truncated text file is rejected or gives a chain with the same labels whose matrix agrees with the written one except in its very last entry, where the difference is within the tolerance of the constructor. C64_other_chain shows that such a different chain is possible."
  },
  {
   "property": "C65",
   "status": "partial",
   "theorems": [
    "Verif.C65_graph_edges",
    "Verif.C65_graph_normalised",
    "Verif.C65_graph_round_trip_partial",
    "Verif.C65_hmm_graph_round_trip_partial",
    "Verif.C65_instance",
    "Verif.C65_renormalised"
   ],
   "note": "Exact for both classes when rows sum to one exactly. The constructor also accepts rows that sum to one within tolerance; C65_graph_normalised describes the result and C65_renormalised shows that it then differs from the chain. Floating point rounding of the division is not modelled."
  },
  {
   "property": "C66",
   "status": "proved",
   "theorems": [
    "Verif.C66_computed_once",
    "Verif.C66_one_value",
    "Verif.C66_raises",
    "Verif.C66_no_deadlock",
    "Verif.C66_mutual_exclusion",
    "Verif.C66_reentrant",
    "Verif.C66_first_value_kept",
    "Verif.C66_reentrant_instance",
    "Verif.C66_every_schedule_ends",
    "Verif.C66_properties_layered",
    "Verif.C66_instance"
   ],
   "note": "Interleaving model of cached_property with one reentrant lock per property. At most one computation unless it raises, one value for all reads, no deadlock and no infinite schedule, for any number of threads and any programs of reads. The table of which property reads which is extracted by hand from the source and shown to be free of circles. Reads through aliases are not covered, see C68_alias_recomputes; methods that store results are C81. C66_mutual_exclusion, C66_reentrant and C66_first_value_kept hold for every table of reads, circular or not."
  },
  {
   "property": "C67",
   "status": "proved",
   "theorems": [
    "Verif.C67_write_raises",
    "Verif.C67_history"
   ],
   "note": "One thread; direct writes into __dict__ of an instance are out of scope."
  },
  {
   "property": "C68",
   "status": "partial",
   "theorems": [
    "Verif.C68_pattern",
    "Verif.C68_accepted",
    "Verif.C68_lookup",
    "Verif.C68_same_value",
    "Verif.C68_alias_recomputes",
    "Verif.C68_hides_inherited",
    "Verif.C68_line_feed",
    "Verif.C68_markov_chain"
   ],
   "note": "Accepted declarations, lookup and equal values are proved, also for the actual declarations of MarkovChain. C68_alias_recomputes: the alias of a cached property is not cached. C68_hides_inherited: an alias may hide a member of a base class. C68_pattern: which names are accepted as aliases; a trailing line feed is accepted (C68_line_feed)."
  },
  {
   "property": "C69",
   "status": "partial",
   "theorems": [
    "Verif.C69_equal_hash_partial",
    "Verif.C69_negative_zero",
    "Verif.C69_equivalence"
   ],
   "note": "Proved without negative zeros; C69_negative_zero gives two equal chains with different hash input."
  },
  {
   "property": "C70",
   "status": "partial",
   "theorems": [
    "Verif.C70_unchanged_partial",
    "Verif.C70_states_changed",
    "Verif.C70_argument_changed",
    "Verif.C70_matrix_changed",
    "Verif.C70_property_changed"
   ],
   "note": "Proved for histories that only write into copies. C70_states_changed, C70_argument_changed, C70_matrix_changed and C70_property_changed show the ways in which a chain changes."
  },
  {
   "property": "C71",
   "status": "proved",
   "theorems": [
    "Verif.C71_create_labels"
   ],
   "note": "Generated default labels."
  },
  {
   "property": "C72",
   "status": "partial",
   "theorems": [
    "Verif.C72_legendre_accepts",
    "Verif.C72_weights_partial",
    "Verif.C72_nodes_partial",
    "Verif.C72_newton_cotes_nodes_outside",
    "Verif.C72_legendre_partial",
    "Verif.C72_legendre",
    "Verif.C72_fit_function_partial",
    "Verif.C72_accepts",
    "Verif.C72_negative_probabilities"
   ],
   "note": "Weights sum to the interval length for all rules but Gauss-Legendre. Validity needs a nonnegative function (C72_negative_probabilities) and, for Gauss-Legendre, at most 463 states. Newton-Cotes nodes ignore the start of the interval (C72_newton_cotes_nodes_outside)."
  },
  {
   "property": "C73",
   "status": "partial",
   "theorems": [
    "Verif.C73_stochastic",
    "Verif.C73_step",
    "Verif.C73_converged",
    "Verif.C73_fit_partial",
    "Verif.C73_accepts",
    "Verif.C73_extra_columns"
   ],
   "note": "C73_stochastic (stochastic matrices, at most 500 iterations, first iteration meeting the tolerance) is unrestricted; C73_fit_partial (the result is a valid model) assumes that the emission guess has one column per symbol, which is not checked: C73_extra_columns. C73_step and C73_converged state what one iteration and the stopping test compute."
  },
  {
   "property": "C74",
   "status": "proved",
   "theorems": [
    "Verif.C74_map",
    "Verif.C74_none",
    "Verif.C74_accepts"
   ],
   "note": "the None condition is that of decode (threshold 1e-300)"
  },
  {
   "property": "C75",
   "status": "proved",
   "theorems": [
    "Verif.C75_constructed_model_is_valid",
    "Verif.C75_constructor_iff",
    "Verif.C75_default_names",
    "Verif.C75_accepts"
   ],
   "note": ""
  },
  {
   "property": "C76",
   "status": "proved",
   "theorems": [
    "Verif.C76_iteration",
    "Verif.C76_fit",
    "Verif.C76_accepts"
   ],
   "note": ""
  },
  {
   "property": "C77",
   "status": "partial",
   "theorems": [
    "Verif.C77_closed_partial",
    "Verif.C77_infinite"
   ],
   "note": "Holds for sequences that end where they begin (C77_closed_partial). In general the code divides by column sums: C77_infinite is a sequence of probability 1/2 that is rejected with an infinite statistic."
  },
  {
   "property": "C78",
   "status": "partial",
   "theorems": [
    "Verif.C78_equal_lengths_partial",
    "Verif.C78_labels_matter"
   ],
   "note": "Holds if all labels have the same length (C78_equal_lengths_partial). Otherwise concatenated labels can coincide: C78_labels_matter."
  },
  {
   "property": "C79",
   "status": "partial",
   "theorems": [
    "Verif.C79_one_block",
    "Verif.C79_equal_blocks_partial",
    "Verif.C79_accepts"
   ],
   "note": "Holds for two or more blocks (C79_equal_blocks_partial). With one block, the default, every sequence is rejected: C79_one_block, C79_accepts."
  },
  {
   "property": "C80",
   "status": "proved",
   "theorems": [
    "Verif.C80_dictionary_described",
    "Verif.C80_incomplete",
    "Verif.C80_accepts",
    "Verif.C80_hmm_dictionary_described"
   ],
   "note": "The dictionary is a list of items with distinct keys; values are numbers as in the validator."
  },
  {
   "property": "C81",
   "status": "partial",
   "theorems": [
    "Verif.C81_calls_agree_partial",
    "Verif.C81_computed_twice",
    "Verif.C81_one_thread"
   ],
   "note": "C81_computed_twice: the methods are not locked, so the computation may run twice and callers may get different objects. All returned values come from the computation."
  },
  {
   "property": "C82",
   "status": "partial",
   "theorems": [
    "Verif.C82_return_probabilities",
    "Verif.C82_mean_number_visits_partial",
    "Verif.C82_sticky",
    "Verif.C82_unlikely"
   ],
   "note": "C82_return_probabilities describes the result for every chain. C82_mean_number_visits_partial proves the claim when no return probability is confused with 0 or 1 by isclose. C82_sticky (infinity instead of 999999) and C82_unlikely (zero instead of infinity) show that the claim fails otherwise."
  },
  {
   "property": "C83",
   "status": "proved",
   "theorems": [
    "Verif.C83_sensitivity",
    "Verif.C83_reducible"
   ],
   "note": "numpy.linalg.lstsq is a parameter whose contract (minimal sum of squared residuals) is satisfiable by exists_lstsq."
  },
  {
   "property": "C84",
   "status": "partial",
   "theorems": [
    "Verif.C84_real_eigenvalues",
    "Verif.C84_complex_eigenvalues",
    "Verif.C84_turn",
    "Verif.C84_time_correlations_partial",
    "Verif.C84_one_sequence_partial"
   ],
   "note": "Proved when no time point exceeds the number of states, and at all time points when the matrix has real eigenvalues and a basis of eigenvectors (C84_real_eigenvalues). C84_complex_eigenvalues shows that the result is wrong for every irreducible chain with an invertible matrix and an eigenvalue that is not real, at every time point above the number of states; C84_turn is a concrete chain. eig is a parameter with the contract EigResult.Sound."
  },
  {
   "property": "C85",
   "status": "partial",
   "theorems": [
    "Verif.C85_real_eigenvalues",
    "Verif.C85_complex_eigenvalues",
    "Verif.C85_turn",
    "Verif.C85_time_relaxations_partial"
   ],
   "note": "Proved when no time point exceeds the number of states, and at all time points when the matrix has real eigenvalues and a basis of eigenvectors (C85_real_eigenvalues). C85_complex_eigenvalues and C85_turn show that the result is wrong otherwise. eig is a parameter with the contract EigResult.Sound."
  },
  {
   "property": "C86",
   "status": "partial",
   "theorems": [
    "Verif.C86_second_modulus_partial",
    "Verif.C86_near_one"
   ],
   "note": "Proved when no other eigenvalue has a modulus within the tolerance of one. C86_near_one: for ergodic two-state chains that leave a state with probability at most 5e-6 all four quantities raise IndexError. eigvals is a parameter with the contract EigvalsSound."
  },
  {
   "property": "C87",
   "status": "proved",
   "theorems": [
    "Verif.C87_implied_timescales"
   ],
   "note": "eigvals is a parameter with the contract EigvalsSound; exact arithmetic."
  },
  {
   "property": "C88",
   "status": "proved",
   "theorems": [
    "Verif.C88_ergodic_iff_regular"
   ],
   "note": "networkx results are parameters with the contract Nx.Sound."
  },
  {
   "property": "C89",
   "status": "partial",
   "theorems": [
    "Verif.C89_symmetric_partial",
    "Verif.C89_inconsistent",
    "Verif.C89_tolerance"
   ],
   "note": "Exact symmetry implies both answers, and a stationary uniform distribution implies the second; the converse holds up to numpy tolerances. C89_inconsistent: a chain reported as symmetric but not as doubly stochastic. C89_tolerance: a chain reported as doubly stochastic whose uniform distribution is not stationary."
  },
  {
   "property": "C90",
   "status": "proved",
   "theorems": [
    "Verif.C90_density"
   ],
   "note": "Exact arithmetic."
  },
  {
   "property": "C91",
   "status": "proved",
   "theorems": [
    "Verif.C91_topological_entropy",
    "Verif.C91_exceeds_rate",
    "Verif.C91_golden_mean"
   ],
   "note": "The eigenvalues are the roots of the characteristic polynomial with multiplicities (contract of numpy.linalg.eigvals); exact real arithmetic."
  },
  {
   "property": "C92",
   "status": "partial",
   "theorems": [
    "Verif.C92_incidence_partial",
    "Verif.C92_ignores_transitions"
   ],
   "note": "Holds for chains in which all transitions between different states are possible. C92_ignores_transitions: the result depends only on the number of states, so there are entries for impossible transitions."
  },
  {
   "property": "C93",
   "status": "proved",
   "theorems": [
    "Verif.C93_cyclic_states"
   ],
   "note": "Under the contract of the networkx routines (Nx.Sound)."
  },
  {
   "property": "C94",
   "status": "proved",
   "theorems": [
    "Verif.C94_transition_probability",
    "Verif.C94_hidden",
    "Verif.C94_rejects"
   ],
   "note": ""
  },
  {
   "property": "C95",
   "status": "proved",
   "theorems": [
    "Verif.C95_hidden_ergodic",
    "Verif.C95_hidden_regular",
    "Verif.C95_more_symbols"
   ],
   "note": "The rank is exact (numpy.linalg.matrix_rank uses a tolerance). C95_more_symbols records that models with more symbols than states are never regular, even if the symbol reveals the state."
  },
  {
   "property": "C96",
   "status": "partial",
   "theorems": [
    "Verif.C96_labels",
    "Verif.C96_bottom_up_partial",
    "Verif.C96_two_groups",
    "Verif.C96_nan"
   ],
   "note": "Holds whenever the splitting vectors take both signs on every group that is split; for two groups this follows from the eigenvector equation (C96_two_groups). Violated otherwise: C96_nan gives a symmetric chain with four states where the second split has an empty part and the returned chain has a row of nan."
  },
  {
   "property": "C97",
   "status": "partial",
   "theorems": [
    "Verif.C97_top_down_partial",
    "Verif.C97_state_dropped",
    "Verif.C97_endless"
   ],
   "note": "Proved: a returned chain has at most s states, and it is a correct aggregation whenever it has s states. Violated: C97_state_dropped (three states, s = 2, one state is returned) and C97_endless (six states, the splitting loop never ends); both affect the default method 'adaptive'."
  },
  {
   "property": "C98",
   "status": "partial",
   "theorems": [
    "Verif.C98_divergence",
    "Verif.C98_best_split",
    "Verif.C98_empty_group"
   ],
   "note": "Proved for lists of non-empty groups. For a list with an empty group, as produced in C96_nan, the transitions are ignored (C98_empty_group)."
  },
  {
   "property": "C99",
   "status": "proved",
   "theorems": [
    "Verif.C99_between",
    "Verif.C99_not_ergodic"
   ],
   "note": ""
  },
  {
   "property": "C100",
   "status": "partial",
   "theorems": [
    "Verif.C100_from_file_partial",
    "Verif.C100_from_table_partial",
    "Verif.C100_hmm_from_file_partial",
    "Verif.C100_hmm_from_table_partial",
    "Verif.C100_negative_probability",
    "Verif.C100_empty_label",
    "Verif.C100_instance"
   ],
   "note": "The probabilities are those of the file and the rows sum to one up to the tolerance. That probabilities are between zero and one is not checked for files: C100_negative_probability gives a JSON file with the probabilities 2 and -1 that is accepted while from_dictionary rejects the same items. C100_empty_label: a CSV header 'P_ ' gives a state with an empty name. The parser of numbers and the parsers of JSON, XML and CSV are parameters."
  },
  {
   "property": "C101",
   "status": "partial",
   "theorems": [
    "Verif.C101_hmm_from_graph_partial",
    "Verif.C101_tiny_weights"
   ],
   "note": "Rows whose weights have a positive sum of at most 1e-8 become uniform: C101_tiny_weights. Weights are finite in the model; the code accepts infinite weights."
  },
  {
   "property": "C102",
   "status": "partial",
   "theorems": [
    "Verif.C102_from_matrices_partial",
    "Verif.C102_accepts",
    "Verif.C102_tiny_rows"
   ],
   "note": "Rows with a positive sum of at most 1e-8 become uniform: C102_tiny_rows."
  },
  {
   "property": "C103",
   "status": "partial",
   "theorems": [
    "Verif.C103_random_partial",
    "Verif.C103_zero_wasted",
    "Verif.C103_instance"
   ],
   "note": "Assigned entries, nonnegativity and row sums hold (a row assigned up to the tolerance may keep its sum). The number of zeros is right only if full rows have no undefined entries: C103_zero_wasted shows a requested zero that is placed where the probability is zero anyway, because the generator passes on the mask in which full rows are not completed."
  },
  {
   "property": "C104",
   "status": "partial",
   "theorems": [
    "Verif.C104_closest_partial",
    "Verif.C104_stationary",
    "Verif.C104_unchanged",
    "Verif.C104_outcome",
    "Verif.C104_gradient",
    "Verif.C104_distribution_ignored",
    "Verif.C104_frozen_raises",
    "Verif.C104_instance"
   ],
   "note": "The optimiser is a parameter: what it returns is feasible and optimal up to eps. The number of basis vectors, the equivalence of the constraints with stochastic matrices in detailed balance, the objective and its gradient are proved for all distributions. C104_distribution_ignored: a chain that is reversible with respect to another distribution is returned unchanged. C104_frozen_raises: a chain with several stationary distributions raises although it is its own closest reversible chain; C104_outcome says exactly when the result is returned."
  },
  {
   "property": "C105",
   "status": "partial",
   "theorems": [
    "Verif.C105_adda_cooper_partial",
    "Verif.C105_accepts",
    "Verif.C105_unit_root_raises"
   ],
   "note": "Partial because the source breaks it: correlations 1 and -1 pass the validation and the call ends with ZeroDivisionError (C105_unit_root_raises). The inverse of the distribution function is a parameter with a contract that is shown to be satisfiable (exists_ppf); the quadrature and the distribution function are exact."
  },
  {
   "property": "C106",
   "status": "partial",
   "theorems": [
    "Verif.C106_tauchen_hussey_partial",
    "Verif.C106_accepts",
    "Verif.C106_unit_root_nan",
    "Verif.C106_nodes_too_wide",
    "Verif.C106_too_persistent"
   ],
   "note": "Partial because the source breaks it: nodes have at least twice the reference variance for two states (C106_nodes_too_wide), a process with correlation 1/2 becomes a chain with correlation above 3/4 (C106_too_persistent), and correlations 1 and -1 without k return a chain with nan (C106_unit_root_nan). Closeness of the nodes to true roots is stated as the last Newton step being below 1e-14."
  },
  {
   "property": "C107",
   "status": "partial",
   "theorems": [
    "Verif.C107_flow_plot_partial",
    "Verif.C107_last_column_hidden",
    "Verif.C107_bars_overlap",
    "Verif.C107_accepts"
   ],
   "note": "C107_flow_plot_partial proves columns, bars and bands. Negations: C107_last_column_hidden (the last column lies outside the x limits for at most 19 steps), C107_bars_overlap (bars of neighbouring columns overlap from 21 columns on)."
  },
  {
   "property": "C108",
   "status": "partial",
   "theorems": [
    "Verif.C108_trellis_partial",
    "Verif.C108_accepts",
    "Verif.C108_first_step_missing",
    "Verif.C108_first_step_impossible",
    "Verif.C108_always_fails",
    "Verif.C108_values_shifted",
    "Verif.C108_backward_colours"
   ],
   "note": "C108_trellis_partial: edges and colours of the forward trellis in both modes, of the backward trellis in extended mode and, in standard mode, for transitions possible in both directions. Negations: C108_first_step_missing, C108_first_step_impossible (the condition on the initial distribution indexes it by the column), C108_values_shifted (values belong to the symbol before the header), C108_backward_colours, C108_always_fails (simulated symbols that decode rejects)."
  },
  {
   "property": "C109",
   "status": "partial",
   "theorems": [
    "Verif.C109_graph_partial",
    "Verif.C109_accepts",
    "Verif.C109_label_zero",
    "Verif.C109_colours_repeat",
    "Verif.C109_hidden_partial"
   ],
   "note": "C109_graph_partial and C109_hidden_partial give nodes, shapes, edges and labels for every accepted call; colours separate the classes when there are at most nine, and no label is zero when every probability is at least 1e-4. Outside these limits the property fails: C109_colours_repeat (two classes share a colour whenever there are more than nine) and C109_label_zero (a transition of probability 1/25 is labelled 0.0 because the smallest probability of the chain is 0). Layout and drawing by pydot, networkx and matplotlib are outside the model."
  },
  {
   "property": "C110",
   "status": "proved",
   "theorems": [
    "Verif.C110_sequence",
    "Verif.C110_sequence_accepts",
    "Verif.C110_hidden_sequence",
    "Verif.C110_hidden_sequence_accepts",
    "Verif.C110_redistributions_call",
    "Verif.C110_redistributions"
   ],
   "note": "The drawing itself (matplotlib) is outside the model; the model returns the arrays passed to it. Possible hidden runs need draws in (0, 1), see C58_zero_draw."
  },
  {
   "property": "C111",
   "status": "partial",
   "theorems": [
    "Verif.C111_rows_partial",
    "Verif.C111_names",
    "Verif.C111_valid_partial",
    "Verif.C111_accepts",
    "Verif.C111_infinite",
    "Verif.C111_not_a_chain"
   ],
   "note": "Proved when the sums of the rows are in the range of doubles (C111_rows_partial, C111_valid_partial). Violated otherwise: two infinite draws in a row become two largest doubles, their sum overflows, and the row becomes zero (C111_infinite); the returned object is not a chain (C111_not_a_chain). Callables as f are reduced to their names."
  },
  {
   "property": "C112",
   "status": "proved",
   "theorems": [
    "Verif.C112_grid",
    "Verif.C112_default_names",
    "Verif.C112_accepted_iff",
    "Verif.C112_cells"
   ],
   "note": "The drawing itself (matplotlib) is outside the model; the model returns the arrays and titles passed to it."
  },
  {
   "property": "C113",
   "status": "partial",
   "theorems": [
    "Verif.C113_points",
    "Verif.C113_circle_partial",
    "Verif.C113_near_one"
   ],
   "note": "Points proved (C113_points); the circle for chains whose other eigenvalues have moduli not close to one (C113_circle_partial). Violated for slowly mixing chains: no circle is drawn (C113_near_one)."
  },
  {
   "property": "C114",
   "status": "partial",
   "theorems": [
    "Verif.C114_accepted_iff",
    "Verif.C114_simple_names_partial",
    "Verif.C114_inner_dot",
    "Verif.C114_read",
    "Verif.C114_directory",
    "Verif.C114_write"
   ],
   "note": "The accepted names are characterised exactly (C114_accepted_iff), with the rules for reading and writing (C114_read, C114_write). Violated for names with a dot inside the stem, such as chain.v2.csv: all suffixes are joined and the name is rejected (C114_inner_dot)."
  },
  {
   "property": "C115",
   "status": "partial",
   "theorems": [
    "Verif.C115_names",
    "Verif.C115_documented_order_partial",
    "Verif.C115_interval",
    "Verif.C115_fit_partial",
    "Verif.C115_swapped_order",
    "Verif.C115_swapped_chain"
   ],
   "note": "Accepted functions and intervals characterised exactly (C115_names, C115_interval); the fitted chain for the documented order and nonnegative functions (C115_fit_partial). Violated for other orders: the names are checked as a set but the arguments are passed by position (C115_swapped_order, C115_swapped_chain)."
  },
  {
   "property": "C116",
   "status": "proved",
   "theorems": [
    "Verif.C116_simulate",
    "Verif.C116_paths",
    "Verif.C116_next"
   ],
   "note": "rng.choice is modelled by the inversion that NumPy uses (first index whose cumulative weight exceeds the draw), with exact sums. The initial state is given, or is the one that rng.randint returned."
  },
  {
   "property": "C117",
   "status": "proved",
   "theorems": [
    "Verif.C117_simulate",
    "Verif.C117_paths"
   ],
   "note": "Sums are exact; the draw 0 (probability zero, see C58_zero_draw) may select an impossible state."
  },
  {
   "property": "C118",
   "status": "proved",
   "theorems": [
    "Verif.C118_converges",
    "Verif.C118_regular_iff",
    "Verif.C118_averages"
   ],
   "note": "Exact arithmetic; the rate is given by a power of the matrix with positive entries. The equivalence needs an Archimedean field, such as the rational or the real numbers."
  },
  {
   "property": "C119",
   "status": "proved",
   "theorems": [
    "Verif.C119_frequencies"
   ],
   "note": "Runs without a final state. The uniform draws are a hypothesis on numpy's generator."
  },
  {
   "property": "C120",
   "status": "proved",
   "theorems": [
    "Verif.C120_consistent"
   ],
   "note": "Runs without a final state, fitting without smoothing. The uniform draws are a hypothesis on numpy's generator."
  },
  {
   "property": "C121",
   "status": "proved",
   "theorems": [
    "Verif.C121_transition_matrix",
    "Verif.C121_emission_matrix",
    "Verif.C121_matrix",
    "Verif.C121_matrix_rows",
    "Verif.C121_hyperparameter",
    "Verif.C121_mask",
    "Verif.C121_random",
    "Verif.C121_hidden_random",
    "Verif.C121_labels",
    "Verif.C121_chain",
    "Verif.C121_hidden",
    "Verif.C121_vector",
    "Verif.C121_rewards",
    "Verif.C121_list_as_array"
   ],
   "note": "Sparse matrices, data frames and complex arrays are not modelled; numbers are exact, so that integers too large for a double are outside the model."
  },
  {
   "property": "C122",
   "status": "proved",
   "theorems": [
    "Verif.C122_equipartition",
    "Verif.C122_blocks"
   ],
   "note": "Exact arithmetic. Results of entropy_rate below zero, which occur for positive rates of at most 1e-8, are excluded here and shown in C52_negative."
  },
  {
   "property": "C123",
   "status": "proved",
   "theorems": [
    "Verif.C123_consistent"
   ],
   "note": "Exact arithmetic."
  },
  {
   "property": "C124",
   "status": "proved",
   "theorems": [
    "Verif.C124_hitting_probabilities",
    "Verif.C124_committor",
    "Verif.C124_hitting_times",
    "Verif.C124_targets",
    "Verif.C124_all_states",
    "Verif.C124_recurrence_times",
    "Verif.C124_absorption_times",
    "Verif.C124_visits"
   ],
   "note": "Exact arithmetic. The committor is the value before the method rounds results of at most 1e-8 to zero (C41_small_values). Recurrence times of states with stationary probability of at most 1e-8 and numbers of visits that meet a tolerance are excluded here; C45_rare_state, C82_sticky and C82_unlikely show what happens there."
  },
  {
   "property": "C125",
   "status": "proved",
   "theorems": [
    "Verif.C125_accepted",
    "Verif.C125_seeded",
    "Verif.C125_unseeded",
    "Verif.C125_shared",
    "Verif.C125_simulate",
    "Verif.C125_next",
    "Verif.C125_hidden_simulate",
    "Verif.C125_hidden_next",
    "Verif.C125_reproducible",
    "Verif.C125_next_reproducible",
    "Verif.C125_hidden_reproducible",
    "Verif.C125_rejected_call_draws"
   ],
   "note": "The algorithms of NumPy are a parameter. The history theorems hold for any computation after the creation of the generator, so they also cover random, dirichlet_process and random_distribution. C125_rejected_call_draws: a call without a seed that is rejected can still use up a draw of the shared generator."
  },
  {
   "property": "C126",
   "status": "proved",
   "theorems": [
    "Verif.C126_named",
    "Verif.C126_unchanged",
    "Verif.C126_seed"
   ],
   "note": "The list of lines is data read off the source (Site). C126_seed: for seeds the parsed name would be the local variable rng, which is harmless because these messages have no placeholder."
  },
  {
   "property": "C127",
   "status": "proved",
   "theorems": [
    "Verif.C127_chain",
    "Verif.C127_hidden",
    "Verif.C127_model",
    "Verif.C127_names",
    "Verif.C127_none",
    "Verif.C127_list",
    "Verif.C127_dpi",
    "Verif.C127_subclass"
   ],
   "note": "C127_subclass: instances of classes that the user derives from MarkovChain are rejected wherever a model is an argument."
  },
  {
   "property": "C128",
   "status": "partial",
   "theorems": [
    "Verif.C128_chain_lines",
    "Verif.C128_hidden_lines",
    "Verif.C128_chain_partial",
    "Verif.C128_period",
    "Verif.C128_hidden"
   ],
   "note": "Aperiodicity is proved for irreducible chains only: C128_period is a chain whose description says that it is not aperiodic and has period one. The answers about absorption, reversibility and symmetry are subject to the tolerances (C29_tolerance, C37_rare_moves, C89_tolerance). The rank is exact; numpy computes it with a tolerance."
  },
  {
   "property": "C129",
   "status": "proved",
   "theorems": [
    "Verif.C129_rate",
    "Verif.C129_mixing_rate",
    "Verif.C129_reversible",
    "Verif.C129_mixing_time",
    "Verif.C129_instance"
   ],
   "note": "C129_rate, C129_mixing_rate, C129_reversible and C129_mixing_time assume, as C86 does, that no other eigenvalue has a modulus that the code confuses with one (otherwise the properties raise, C86_near_one). The distance is the sum of absolute differences. Gelfand's formula and the norm of symmetric matrices come from Mathlib. C129_instance meets all hypotheses."
  },
  {
   "property": "C130",
   "status": "proved",
   "theorems": [
    "Verif.C130_estimate"
   ],
   "note": "C130_estimate. The draws are uniform and independent (C117). The run may be passed on as labels or as indices. An example beside it meets all hypotheses."
  },
  {
   "property": "C131",
   "status": "proved",
   "theorems": [
    "Verif.C131_decode",
    "Verif.C131_map",
    "Verif.C131_instance"
   ],
   "note": "C131_decode and C131_map. The first symbol of a run must be dropped, because decode assumes a transition before the first symbol while simulate does not (C56_disagrees_with_simulation). Each start state is weighted with its entry of the initial status. C131_instance meets the hypotheses."
  },
  {
   "property": "C132",
   "status": "proved",
   "theorems": [
    "Verif.C132_shares",
    "Verif.C132_simulated"
   ],
   "note": "C132_shares (any ordered field) and C132_simulated (law of the simulated runs). The nonnegative least-squares solver is a parameter with the contract Nnls.Sound, the components of networkx one with IsClasses. Examples beside them meet the hypotheses with two recurrent classes and compute the share."
  },
  {
   "property": "C133",
   "status": "proved",
   "theorems": [
    "Verif.C133_limit",
    "Verif.C133_iff",
    "Verif.C133_simulated"
   ],
   "note": "C133_limit (any ordered field), C133_iff and C133_simulated. The order of periods and the value one of transient classes (C32_order, C32_transient_class) do not matter here. networkx and the nonnegative least-squares solver are parameters with contracts. An example beside them has one chain of each kind."
  },
  {
   "property": "C134",
   "status": "partial",
   "theorems": [
    "Verif.C134_structure",
    "Verif.C134_irreducible_period",
    "Verif.C134_pi",
    "Verif.C134_reversible",
    "Verif.C134_hitting",
    "Verif.C134_visits",
    "Verif.C134_passage",
    "Verif.C134_committor",
    "Verif.C134_absorption",
    "Verif.C134_entropy",
    "Verif.C134_predict",
    "Verif.C134_simulate",
    "Verif.C134_canonical",
    "Verif.C134_period"
   ],
   "note": "C134_structure, C134_irreducible_period, C134_pi, C134_reversible, C134_hitting, C134_visits, C134_passage, C134_committor, C134_absorption, C134_entropy, C134_predict, C134_simulate and C134_canonical show it for those measures. It is false for period of a chain with several classes (C134_period: one for the chain, two for its canonical form). is_stochastically_monotone depends on the order by definition and is not part of the claim. External solvers are parameters with contracts."
  },
  {
   "property": "C135",
   "status": "proved",
   "theorems": [
    "Verif.C135_identity",
    "Verif.C135_accepts",
    "Verif.C135_measures",
    "Verif.C135_simulate"
   ],
   "note": "C135_identity, C135_accepts, C135_measures and C135_simulate. networkx and the random generator are parameters with contracts."
  },
  {
   "property": "C136",
   "status": "proved",
   "theorems": [
    "Verif.C136_lump",
    "Verif.C136_flags",
    "Verif.C136_pi",
    "Verif.C136_reversible",
    "Verif.C136_hitting",
    "Verif.C136_passage",
    "Verif.C136_committor",
    "Verif.C136_rewards",
    "Verif.C136_simulate",
    "Verif.C136_entropy",
    "Verif.C136_eigenvalues",
    "Verif.C136_slem",
    "Verif.C136_instance"
   ],
   "note": "C136_lump, C136_flags, C136_pi, C136_reversible, C136_hitting, C136_passage, C136_committor, C136_rewards, C136_simulate, C136_entropy, C136_eigenvalues and C136_slem. Labels of groups may collide (C22_duplicate_labels); the claim is about partitions for which they do not. C136_slem has the hypothesis of C86 that no other eigenvalue has a modulus close to one. Solvers and networkx are parameters with contracts."
  },
  {
   "property": "C137",
   "status": "partial",
   "theorems": [
    "Verif.C137_expected_rewards",
    "Verif.C137_expected_transitions_partial",
    "Verif.C137_first_passage",
    "Verif.C137_first_passage_all",
    "Verif.C137_first_passage_reward",
    "Verif.C137_sequence_probability",
    "Verif.C137_transition_probability",
    "Verif.C137_redistribute",
    "Verif.C137_time_relaxations_partial",
    "Verif.C137_time_correlations_partial",
    "Verif.C137_instance"
   ],
   "note": "C137_expected_rewards, C137_first_passage, C137_first_passage_all, C137_first_passage_reward, C137_sequence_probability, C137_transition_probability and C137_redistribute hold for all accepted arguments they name. expected_transitions is wrong from three steps up to the number of states (C47_wrong_total), first_passage_probabilities for sets (C48_set_exceeds_one), and time_correlations and time_relaxations for complex eigenvalues (C84_complex_eigenvalues, C85_complex_eigenvalues)."
  },
  {
   "property": "C138",
   "status": "proved",
   "theorems": [
    "Verif.C138_lazy",
    "Verif.C138_flags",
    "Verif.C138_pi",
    "Verif.C138_shares",
    "Verif.C138_reversible",
    "Verif.C138_hitting",
    "Verif.C138_passage",
    "Verif.C138_committor",
    "Verif.C138_absorption",
    "Verif.C138_eigenvalues",
    "Verif.C138_instance"
   ],
   "note": "C138_lazy, C138_flags, C138_pi, C138_shares, C138_reversible, C138_hitting, C138_passage, C138_committor, C138_absorption and C138_eigenvalues. Reversibility is detailed balance; is_reversible compares with a tolerance (C37)."
  },
  {
   "property": "C139",
   "status": "partial",
   "theorems": [
    "Verif.C139_order",
    "Verif.C139_flags",
    "Verif.C139_classes",
    "Verif.C139_pi",
    "Verif.C139_reversible",
    "Verif.C139_hitting",
    "Verif.C139_redistribute",
    "Verif.C139_simulate",
    "Verif.C139_absorption_partial",
    "Verif.C139_eigenvalues",
    "Verif.C139_mixing_partial",
    "Verif.C139_instance"
   ],
   "note": "C139_order, C139_flags, C139_classes, C139_pi, C139_reversible, C139_hitting, C139_redistribute, C139_simulate and C139_eigenvalues hold as claimed. C139_absorption_partial needs that no diagonal entry below one is within the tolerance of one (otherwise C39_sticky), C139_mixing_partial that no modulus of an eigenvalue is (otherwise C86_near_one)."
  },
  {
   "property": "C140",
   "status": "partial",
   "theorems": [
    "Verif.C140_identity",
    "Verif.C140_gamblers_ruin",
    "Verif.C140_urn_model",
    "Verif.C140_population_genetics",
    "Verif.C140_birth_death",
    "Verif.C140_dirichlet",
    "Verif.C140_rouwenhorst",
    "Verif.C140_tauchen",
    "Verif.C140_adda_cooper",
    "Verif.C140_random_distribution",
    "Verif.C140_bounded",
    "Verif.C140_lazy",
    "Verif.C140_merge",
    "Verif.C140_nth_order",
    "Verif.C140_redistribute",
    "Verif.C140_simulate",
    "Verif.C140_next",
    "Verif.C140_predict",
    "Verif.C140_sequence_probability",
    "Verif.C140_expected_rewards",
    "Verif.C140_expected_transitions",
    "Verif.C140_first_passage_probabilities",
    "Verif.C140_first_passage_reward",
    "Verif.C140_hitting",
    "Verif.C140_mfpt_to",
    "Verif.C140_mfpt_between",
    "Verif.C140_committor",
    "Verif.C140_mixing_time"
   ],
   "note": "The exact conditions are proved for every function named, with Tauchen-Hussey left out because its search for the nodes may fail. They differ from the documented ranges in a few places: to_bounded_chain accepts NaN (C12_nan_accepted, C140_bounded), birth_death accepts vectors with one element (C11_one_state_chain, C140_birth_death), the correlation -1 passes the validation and raises afterwards in the method of Tauchen (C19_minus_one_raises, C140_tauchen), as do 1 and -1 in the method of Adda and Cooper (C105_unit_root_raises, C140_adda_cooper), and a Moran model is rejected when a denominator is zero (C140_population_genetics)."
  },
  {
   "property": "C141",
   "status": "partial",
   "theorems": [
    "Verif.C141_random_target",
    "Verif.C141_one_target",
    "Verif.C141_recurrence",
    "Verif.C141_hitting",
    "Verif.C141_committor",
    "Verif.C141_committor_reversible",
    "Verif.C141_absorption_partial",
    "Verif.C141_absorption_times",
    "Verif.C141_visits_partial",
    "Verif.C141_first_passage",
    "Verif.C141_rewards",
    "Verif.C141_transitions_partial"
   ],
   "note": "C141_absorption_partial, C141_visits_partial and C141_transitions_partial need the conditions of C39, C82 and C47; without them the results disagree, as C39_sticky, C82_sticky and C47_wrong_total show. C141_committor: the sum is one up to the clipping of values below 1e-8."
  },
  {
   "property": "C142",
   "status": "proved",
   "theorems": [
    "Verif.C142_gamblers_ruin",
    "Verif.C142_moran",
    "Verif.C142_wright_fisher",
    "Verif.C142_urn",
    "Verif.C142_birth_death",
    "Verif.C142_rouwenhorst",
    "Verif.C142_birth_death_instance"
   ],
   "note": "Uses the contract of scipy's nnls for hitting probabilities. C142_moran asks for a selection intensity below one, since other values give negative weights (see C09)."
  },
  {
   "property": "C143",
   "status": "partial",
   "theorems": [
    "Verif.C143_subchain",
    "Verif.C143_structure",
    "Verif.C143_pi",
    "Verif.C143_hitting",
    "Verif.C143_visits",
    "Verif.C143_absorption_partial",
    "Verif.C143_rewards",
    "Verif.C143_first_passage",
    "Verif.C143_simulate",
    "Verif.C143_predict"
   ],
   "note": "C143_absorption_partial has the condition of C39 for absorption probabilities: no state may be absorbing only within the tolerance of isclose (C39_sticky shows what happens otherwise). Hitting quantities use the contract of scipy's nnls; the law of runs uses independent uniform draws."
  },
  {
   "property": "C144",
   "status": "proved",
   "theorems": [
    "Verif.C144_merge",
    "Verif.C144_structure",
    "Verif.C144_pi",
    "Verif.C144_monotone",
    "Verif.C144_rewards"
   ],
   "note": "networkx's strongly connected components enter through the contract IsClasses/Nx.Sound."
  },
  {
   "property": "C145",
   "status": "proved",
   "theorems": [
    "Verif.C145_total",
    "Verif.C145_longer",
    "Verif.C145_no_noise",
    "Verif.C145_foreign",
    "Verif.C145_no_information",
    "Verif.C145_viterbi",
    "Verif.C145_lumped"
   ],
   "note": "The Viterbi inequality uses the rounding contract: every rounding in the prediction moves a number by at most δ."
  },
  {
   "property": "C146",
   "status": "proved",
   "theorems": [
    "Verif.C146_decode",
    "Verif.C146_predict",
    "Verif.C146_simulate",
    "Verif.C146_next",
    "Verif.C146_probabilities",
    "Verif.C146_transition_probability",
    "Verif.C146_restrict",
    "Verif.C146_estimate",
    "Verif.C146_from_matrices",
    "Verif.C146_fit_sequence",
    "Verif.C146_decode_instance",
    "Verif.C146_restrict_instance",
    "Verif.C146_fit_instance",
    "Verif.C146_default_names"
   ],
   "note": "The seed and output arguments of the hidden methods are not modelled. C146_default_names: omitting the states is rejected if a symbol is called P1."
  },
  {
   "property": "C147",
   "status": "proved",
   "theorems": [
    "Verif.C147_any_order",
    "Verif.C147_exact",
    "Verif.C147_pi",
    "Verif.C147_relative",
    "Verif.C147_double",
    "Verif.C147_perturbation",
    "Verif.C147_tolerance"
   ],
   "note": "The arithmetic is a parameter with the contract Arith.Sound (no underflow, no overflow); rounded_sound shows that rounding every operation satisfies it and C147_any_order that the order of summation does not matter. C147_exact: with exact arithmetic the program is the one of the other properties."
  },
  {
   "property": "C148",
   "status": "proved",
   "theorems": [
    "Verif.C148_rewards",
    "Verif.C148_passage",
    "Verif.C148_passage_set",
    "Verif.C148_power",
    "Verif.C148_normalised",
    "Verif.C148_redistribution",
    "Verif.C148_redistribute"
   ],
   "note": "Arith.Sound as in C147; binary64_rounding: rounding to the nearest double (53 bits, ties to even, no limit of the exponent) satisfies the contract with u = 2^-53."
  },
  {
   "property": "C149",
   "status": "proved",
   "theorems": [
    "Verif.C149_decode",
    "Verif.C149_programs",
    "Verif.C149_returns",
    "Verif.C149_log"
   ],
   "note": "Arith.Sound as in C147; the logarithm itself is exact."
  },
  {
   "property": "C150",
   "status": "partial",
   "theorems": [
    "Verif.C150_lazy_partial",
    "Verif.C150_merged_partial",
    "Verif.C150_lumped_rejected",
    "Verif.C150_normalised_partial",
    "Verif.C150_power_rejected"
   ],
   "note": "Holds for matrices whose rows are divided by their sums, of any entries (C150_normalised_partial, with (2n+1)u at most 1e-6), and for lazy and merged chains of matrices whose rows sum to one up to 1e-5 (C150_lazy_partial, C150_merged_partial). Fails for to_nth_order: C150_power_rejected has a chain whose square has an entry above one in doubles. Fails for lump: C150_lumped_rejected has a valid chain of doubles and a lumpable partition where the lumped chain has a probability above one. Aggregated chains are not covered."
  },
  {
   "property": "C151",
   "status": "partial",
   "theorems": [
    "Verif.C151_regular_partial",
    "Verif.C151_small_probabilities",
    "Verif.C151_row_sums"
   ],
   "note": "In double arithmetic with gradual underflow (double, Arith.Gradual; matrix_power squares repeatedly), a chain that is called regular is regular, and a regular chain is called so if its positive probabilities are at least 2^-s and s times the exponent is at most 1074 (C151_regular_partial). The general statement fails for two kinds of matrices that the constructor accepts: probabilities 2^-600 on three states (C151_small_probabilities), and nine states in a circle with the probabilities 0.33333 (C151_row_sums), where the power of order 9^9-16 vanishes because the row sums are 0.99999."
  },
  {
   "property": "C152",
   "status": "partial",
   "theorems": [
    "Verif.C152_pi_returns",
    "Verif.C152_pi_returns_instance",
    "Verif.C152_pi_returns_partial",
    "Verif.C152_pi_raises"
   ],
   "note": "Proved for every accepted chain of doubles, irreducible or not, whose positive probabilities are at least 2^-d and whose number of states is at most 1000/(d+1): pi returns one vector per recurrent class (C152_pi_returns; for example all chains of 100 states with positive probabilities of at least 2^-9, and of 20 states with at least 2^-49). Also for irreducible chains in which every state but the last one has a positive probability to move to a state later in the order, however small the probabilities are (C152_pi_returns_partial). The general statement fails: for an accepted irreducible chain with three states pi returns a vector without rounding and raises a ValueError with doubles (C152_pi_raises)."
  },
  {
   "property": "C153",
   "status": "partial",
   "theorems": [
    "Verif.C153_simulate_partial",
    "Verif.C153_simulate_iff",
    "Verif.C153_first_row",
    "Verif.C153_simulate_raises",
    "Verif.C153_hidden_partial",
    "Verif.C153_hidden_raises"
   ],
   "note": "The check of rng.choice (weights nonnegative, sum within 2^-26 of one, exact summation) is added to the calls. If all rows meet it, the results are those of the other theorems about simulations (C153_simulate_partial, C153_hidden_partial). C153_simulate_iff gives the exact condition for every matrix. The property fails: for three states with the probabilities 0.33333 every accepted call raises a ValueError (C153_simulate_raises, from C153_first_row), and likewise for emission probabilities (C153_hidden_raises)."
  },
  {
   "property": "C154",
   "status": "partial",
   "theorems": [
    "Verif.C154_legendre_fixed",
    "Verif.C154_legendre_stops",
    "Verif.C154_legendre_exact",
    "Verif.C154_legendre_nodes_partial",
    "Verif.C154_legendre_two",
    "Verif.C154_trapezoid",
    "Verif.C154_simpson",
    "Verif.C154_niederreiter",
    "Verif.C154_newton_cotes_partial",
    "Verif.C154_chebyshev",
    "Verif.C154_by_name_partial"
   ],
   "note": "Newton-Cotes integrates degree 1 only if the interval starts at zero, because its nodes ignore the start (C154_newton_cotes_partial). Gauss-Legendre stops within a tolerance: exact at the roots (C154_legendre_exact), a fixed point of the iteration, and every returned node is within (n+1)/10^8 of half the interval of a node of the exact rule (C154_legendre_nodes_partial)."
  },
  {
   "property": "C155",
   "status": "proved",
   "theorems": [
    "Verif.C155_nth_order",
    "Verif.C155_variance",
    "Verif.C155_reversible"
   ],
   "note": "C155_nth_order, C155_variance, C155_reversible. The proof goes through the generating polynomials of the rows; exact arithmetic."
  },
  {
   "property": "C156",
   "status": "partial",
   "theorems": [
    "Verif.C156_iteration",
    "Verif.C156_fit_partial",
    "Verif.C156_unequal_lengths",
    "Verif.C156_certain_rejected",
    "Verif.C156_accepts"
   ],
   "note": "C156_iteration gives the new matrices exactly: means of relative frequencies in which every sequence has the same weight. C156_fit_partial is the claim for one sequence. It fails for several ones: started at the relative frequencies, fit returns a model of smaller probability (C156_unequal_lengths). C156_certain_rejected: a guess that explains the symbols with probability one is returned by the type baum-welch and raises a ValueError in the type viterbi."
  },
  {
   "property": "C157",
   "status": "partial",
   "theorems": [
    "Verif.C157_bounded",
    "Verif.C157_two_blocks_two_states",
    "Verif.C157_fewer_blocks_than_states",
    "Verif.C157_zero_partial",
    "Verif.C157_changing_sequence"
   ],
   "note": "C157_zero_partial is the last clause, except with two states and two blocks. The rest is false, because the tables are divided by their row sums: C157_bounded bounds the statistic independently of the length, C157_fewer_blocks_than_states shows that with fewer blocks than states no sequence is rejected at any accepted significance, and C157_two_blocks_two_states that with two blocks and two states the statistic is zero for every sequence, as for the one in C157_changing_sequence."
  },
  {
   "property": "C158",
   "status": "partial",
   "theorems": [
    "Verif.C158_decomposition",
    "Verif.C158_equal_shares_partial",
    "Verif.C158_false_rejection"
   ],
   "note": "C158_equal_shares_partial is the claim for sequences that leave every state in equal proportions. In general a second nonnegative statistic, which compares these proportions, is added (C158_decomposition); it makes the test reject two sequences that one chain follows with probability 1/2 each and whose transition probabilities have a p-value above 4/5 (C158_false_rejection)."
  },
  {
   "property": "C159",
   "status": "partial",
   "theorems": [
    "Verif.C159_statistic",
    "Verif.C159_degrees_of_freedom",
    "Verif.C159_deterministic_partial",
    "Verif.C159_constant_rejected",
    "Verif.C159_two_observations",
    "Verif.C159_missed_rejection",
    "Verif.C159_accepts"
   ],
   "note": "C159_statistic gives the difference to Pearson's statistic, which is zero if all expected triples occur; C159_deterministic_partial is the last clause for sequences with degrees of freedom. The degrees of freedom are too many by the square of the number of the states less one if all triples occur (C159_degrees_of_freedom), which prevents a rejection in C159_missed_rejection, and constant sequences are rejected with the statistic zero (C159_constant_rejected). C159_two_observations: two different observations are rejected, two equal ones have minus one degrees of freedom."
  },
  {
   "property": "C160",
   "status": "proved",
   "theorems": [
    "Verif.C160_kemeny_spectrum"
   ],
   "note": "C160_kemeny_spectrum in exact arithmetic over the reals, with the complex eigenvalues taken as roots of the characteristic polynomial."
  },
  {
   "property": "C161",
   "status": "partial",
   "theorems": [
    "Verif.C161_exact",
    "Verif.C161_lump_partial",
    "Verif.C161_rejected",
    "Verif.C161_accepted"
   ],
   "note": "C161_exact: without rounding the programs are those of C22 and C23. C161_lump_partial: a returned chain is lumpable up to a relative error of 4nu and has the right probabilities up to 2(6n+1)u. The equivalence fails in doubles: C161_rejected (three equal states are not lumped) and C161_accepted (states that differ by 2^-60 are lumped)."
  },
  {
   "property": "C162",
   "status": "partial",
   "theorems": [
    "Verif.C162_exact",
    "Verif.C162_monotone_partial",
    "Verif.C162_missed",
    "Verif.C162_wrong"
   ],
   "note": "C162_monotone_partial: true implies monotone up to the factor of 2n roundings, and chains that are monotone with that margin give true. C162_exact relates it to C36. The equivalence fails in doubles in both directions: C162_missed, C162_wrong."
  },
  {
   "property": "C163",
   "status": "proved",
   "theorems": [
    "Verif.C163_random_target",
    "Verif.C163_lower"
   ],
   "note": "C163_random_target gives the value and the number of eigenvalues, C163_lower the bound. Complements C141_random_target (independence of the start over any ordered field) and C160 (the same sum for absorbing chains, which is where kemeny_constant gives a value)."
  },
  {
   "property": "C164",
   "status": "partial",
   "theorems": [
    "Verif.C164_truncated_partial",
    "Verif.C164_other_model",
    "Verif.C164_instance",
    "Verif.C164_missing_row"
   ],
   "note": "C164_truncated_partial: labels and transition probabilities are always right, and so are the emission probabilities except possibly in the last row from some symbol on; they are right up to the tolerance if the file ends with a complete line. C164_other_model shows that the claim fails: a probability 1e-10 that is cut after its first digit is read as 1, the missing entries are zero, and the file is accepted."
  },
  {
   "property": "C165",
   "status": "partial",
   "theorems": [
    "Verif.C165_hidden_runs_partial",
    "Verif.C165_chain_runs",
    "Verif.C165_frequencies",
    "Verif.C165_selected",
    "Verif.C165_never_selected",
    "Verif.C165_instance"
   ],
   "note": "C165_chain_runs for all draws, C165_hidden_runs_partial for positive draws (C58_zero_draw for the draw zero): only possible transitions and emissions, also if rows do not add up to one. C165_frequencies: shares are right up to (16 n + 1) / 2^53, hence what is more likely than that is selected by some draw (C165_selected). C165_never_selected: a transition of probability 2^-60 is an edge of the chain but no draw takes it."
  },
  {
   "property": "C166",
   "status": "partial",
   "theorems": [
    "Verif.C166_viterbi_possible",
    "Verif.C166_map_states_partial",
    "Verif.C166_map_impossible"
   ],
   "note": "C166_viterbi_possible: holds for the types mle and viterbi. C166_map_states_partial: for the type map every predicted state lies on a possible path that emits the symbols, but C166_map_impossible shows that two consecutive predicted states may be joined by a transition of probability zero."
  },
  {
   "property": "C167",
   "status": "partial",
   "theorems": [
    "Verif.C167_mixing_time",
    "Verif.C167_same",
    "Verif.C167_instance",
    "Verif.C167_differs"
   ],
   "note": "C167_mixing_time and C167_same hold for arithmetic without underflow. C167_differs: a chain with probabilities that are doubles whose mixing time is one, while two is returned in double arithmetic, because the distance after one step equals the cutoff."
  },
  {
   "property": "C168",
   "status": "partial",
   "theorems": [
    "Verif.C168_relative_partial",
    "Verif.C168_digits",
    "Verif.C168_underflow",
    "Verif.C168_possible_zero"
   ],
   "note": "C168_relative_partial proves the bound for probabilities of at least 2^-1021, C168_digits that sequences of at most 1000 states then have eight correct digits. C168_underflow: possible sequences of probability at most 2^-1076 get the probability zero; C168_possible_zero: 1077 equal results of a fair coin."
  },
  {
   "property": "C169",
   "status": "partial",
   "theorems": [
    "Verif.C169_accuracy_partial",
    "Verif.C169_stationary_partial",
    "Verif.C169_instance",
    "Verif.C169_recurrence_partial"
   ],
   "note": "C169_accuracy_partial (accepted matrices), C169_stationary_partial (stochastic matrices, true stationary distributions). The bound on d and n excludes underflow; without such a bound pi can raise an error (C152_pi_raises). C169_recurrence_partial: mean_recurrence_times has a relative error of at most 13 n^3 / 2^53 for states with a stationary probability above 2e-8."
  },
  {
   "property": "C170",
   "status": "proved",
   "theorems": [
    "Verif.C170_passage_times",
    "Verif.C170_committor",
    "Verif.C170_fundamental",
    "Verif.C170_absorption_times",
    "Verif.C170_absorption_probabilities",
    "Verif.C170_digits",
    "Verif.C170_exact",
    "Verif.C170_exact_stable",
    "Verif.C170_instance"
   ],
   "note": "C170_passage_times, C170_committor, C170_fundamental, C170_absorption_times, C170_absorption_probabilities; C170_digits for doubles. C170_exact: without rounding the programs are those of C38, C39, C40 and C44. C170_exact_stable, roundedSolver_stable and C170_instance: the contracts can be met, also by a solver that rounds. The contracts (residuals small compared with the norms) are assumptions about LAPACK and BLAS; the result is assumed to be returned. Passage times between all states are in C173. Backward committors are in C174."
  },
  {
   "property": "C171",
   "status": "proved",
   "theorems": [
    "Verif.C171_probabilities",
    "Verif.C171_times",
    "Verif.C171_digits",
    "Verif.C171_exact",
    "Verif.C171_instance"
   ],
   "note": "C171_probabilities, C171_times; C171_digits for doubles. C171_exact: without rounding the programs are those of C42 and C43. monotone_of_positive and exists_nonneg_solution: the computed system has a nonnegative solution. roundedNnls_stable, roundedSum_stable and C171_instance: the contracts can be met by routines that round. Residuals of scipy's nnls and sums of numpy are assumptions. Chains in which some state cannot reach the targets are outside the claim: their system is singular and small residuals say nothing."
  },
  {
   "property": "C172",
   "status": "partial",
   "theorems": [
    "Verif.C172_reversible_partial",
    "Verif.C172_agrees_partial",
    "Verif.C172_detailed_balance_partial",
    "Verif.C172_instance"
   ],
   "note": "C172_reversible_partial, C172_agrees_partial, C172_detailed_balance_partial, C172_instance. Partial as C169: probabilities that are too small for the number of states are not covered (the elimination can underflow, see C152). The sums in numpy's elimination are taken from the left to the right."
  },
  {
   "property": "C173",
   "status": "proved",
   "theorems": [
    "Verif.C173_all_states",
    "Verif.C173_digits",
    "Verif.C173_double_partial",
    "Verif.C173_between",
    "Verif.C173_exact",
    "Verif.C173_instance"
   ],
   "note": "C173_all_states, C173_between, C173_digits; C173_double_partial combines them with C169. C173_exact: without rounding the programs are those of C44 and mfptBetween. roundedInverter_stable and C173_instance: the contracts can be met. The contracts are assumptions about LAPACK and BLAS; the result is assumed to be returned. The relative contract of the rounding excludes overflow and underflow in the last product."
  },
  {
   "property": "C174",
   "status": "proved",
   "theorems": [
    "Verif.C174_backward",
    "Verif.C174_kemeny",
    "Verif.C174_exact",
    "Verif.C174_instance",
    "Verif.C174_kemeny_instance",
    "Verif.C174_scale"
   ],
   "note": "C174_backward, C174_kemeny; C174_scale is the example that shows that xi is needed. C174_exact: without rounding the programs are those of C41 and kemenyConstant. C174_instance and C174_kemeny_instance: the hypotheses can be met. The contracts are assumptions about LAPACK; C174_scale is about the contract, not about the solver of LAPACK. The result is assumed to be returned, and C169 bounds psi for doubles."
  },
  {
   "property": "C175",
   "status": "proved",
   "theorems": [
    "Verif.C175_visits",
    "Verif.C175_infinite",
    "Verif.C175_exact",
    "Verif.C175_instance"
   ],
   "note": "C175_visits, C175_infinite. C175_exact: without rounding the program is that of C82. C175_instance: the hypotheses can be met with a solver that rounds to doubles. The contract of the solver is an assumption about LAPACK; the result is assumed to be returned. Probabilities between 0 and 1e-8 or between 1-1e-5 and 1 are excluded by the hypotheses: there the exact program is wrong as well (C82_sticky, C82_unlikely)."
  },
  {
   "property": "C176",
   "status": "proved",
   "theorems": [
    "Verif.C176_formula",
    "Verif.C176_sensitivity",
    "Verif.C176_exact",
    "Verif.C176_instance"
   ],
   "note": "C176_formula (exact arithmetic, any vector of least squares), C176_sensitivity (rounding). C176_exact: without rounding the program is that of C83. C176_instance: the hypotheses can be met in doubles. X is a bound a posteriori: the contract of lstsq says nothing about the size of its result. The contract of the residual is assumed for the call in question. The result is assumed to be returned."
  },
  {
   "property": "C177",
   "status": "proved",
   "theorems": [
    "Verif.C177_correlations",
    "Verif.C177_relaxations",
    "Verif.C177_transitions",
    "Verif.C177_double",
    "Verif.C177_exact"
   ],
   "note": "C177_correlations, C177_relaxations, C177_transitions, C177_double; C177_exact: without rounding the programs are those of C84, C85 and C47. The branches for larger time points use the eigenvalues and are not covered (see C84, C85). For expected_transitions the comparison is with the program without rounding, which is not the mean number of transitions (C47: idist and idist_sum are the same array). Underflow is not modelled."
  },
  {
   "property": "C178",
   "status": "proved",
   "theorems": [
    "Verif.C178_entropy_rate",
    "Verif.C178_zero",
    "Verif.C178_normalized",
    "Verif.C178_exact"
   ],
   "note": "C178_entropy_rate, C178_zero, C178_normalized; C178_exact: without rounding the program is that of C52. That rates below the tolerance get the wrong sign is C52_negative. The computed topological entropy is a number with a contract, because eigenvalues are a parameter. Underflow is not modelled."
  },
  {
   "property": "C179",
   "status": "partial",
   "theorems": [
    "Verif.C179_returned",
    "Verif.C179_result",
    "Verif.C179_valid",
    "Verif.C179_sequence",
    "Verif.C179_integers"
   ],
   "note": "C179_returned, C179_result and C179_valid hold for all arguments. C179_sequence proves the last sentence for strings without a prefix. It fails for integers: for [5, 7, 5] the labels are 1 and 2, and the data are rejected as a sequence (C179_integers)."
  },
  {
   "property": "C180",
   "status": "proved",
   "theorems": [
    "Verif.C180_mle",
    "Verif.C180_mle_rounded",
    "Verif.C180_smoothing",
    "Verif.C180_map",
    "Verif.C180_mle_double",
    "Verif.C180_instance",
    "Verif.C180_exact"
   ],
   "note": "C180_mle (any arithmetic exact on counts), C180_mle_rounded, C180_mle_double, C180_smoothing, C180_map. C180_exact: without rounding the programs are those of C24 and C25. C180_instance: the contracts are met by rounding to 53 bits. Overflow is not modelled; the hyper-parameters are bounded by the total."
  },
  {
   "property": "C181",
   "status": "partial",
   "theorems": [
    "Verif.C181_chain",
    "Verif.C181_hidden",
    "Verif.C181_load",
    "Verif.C181_load_hidden",
    "Verif.C181_kinds",
    "Verif.C181_read",
    "Verif.C181_overflow"
   ],
   "note": "C181_chain, C181_hidden (integers converted exactly), C181_load, C181_load_hidden, C181_kinds, C181_read. The promise is violated: C181_overflow is a JSON file that is rejected with an OverflowError, because float(value) is outside of any try. Errors of the csv and json libraries for text that is not CSV or JSON and of the operating system are not modelled."
  },
  {
   "property": "C182",
   "status": "proved",
   "theorems": [
    "Verif.C182_birth_death",
    "Verif.C182_exact",
    "Verif.C182_double",
    "Verif.C182_negative_stay",
    "Verif.C182_instance"
   ],
   "note": "C182_birth_death; C182_double for 53 bits; C182_negative_stay and C182_instance show accepted vectors with a negative intermediate value; C182_exact: without rounding the program is the one of C11. Underflow is not modelled; the tolerance in the validation of the corner values is the number 1e-8."
  },
  {
   "property": "C183",
   "status": "proved",
   "theorems": [
    "Verif.C183_gamblers_ruin",
    "Verif.C183_urn_model",
    "Verif.C183_bounded",
    "Verif.C183_double",
    "Verif.C183_inexact"
   ],
   "note": "C183_gamblers_ruin, C183_urn_model, C183_bounded; C183_double for 53 bits; C183_inexact: the rows of an accepted gambler's ruin chain need not sum to one exactly. x**2.0 is a parameter with a contract (IsSquaring). Underflow is not modelled."
  },
  {
   "property": "C184",
   "status": "partial",
   "theorems": [
    "Verif.C184_boolean",
    "Verif.C184_integer",
    "Verif.C184_float",
    "Verif.C184_enumerator",
    "Verif.C184_dpi",
    "Verif.C184_boundary",
    "Verif.C184_label",
    "Verif.C184_labels_current",
    "Verif.C184_time_points",
    "Verif.C184_labels_input",
    "Verif.C184_sequence",
    "Verif.C184_strings",
    "Verif.C184_partitions",
    "Verif.C184_not_a_list",
    "Verif.C184_transition_matrix",
    "Verif.C184_emission_matrix",
    "Verif.C184_matrix",
    "Verif.C184_mask",
    "Verif.C184_vector",
    "Verif.C184_rewards",
    "Verif.C184_status",
    "Verif.C184_models",
    "Verif.C184_hyperparameter",
    "Verif.C184_other"
   ],
   "note": "Proved for each validator (C184_boolean to C184_hyperparameter); C184_other: what is not a TypeError is a ValueError. The convention is violated by four validators: C184_not_a_list shows that an argument that is not a list is rejected with ValueError by validate_labels_input, validate_sequence, validate_strings and validate_partitions; the theorems on these four describe lists only. Lists nested more than twice are not covered."
  },
  {
   "property": "C185",
   "status": "proved",
   "theorems": [
    "Verif.C185_rows",
    "Verif.C185_transition_matrix",
    "Verif.C185_emission_matrix",
    "Verif.C185_constructor",
    "Verif.C185_accepted",
    "Verif.C185_symmetric",
    "Verif.C185_doubly",
    "Verif.C185_double",
    "Verif.C185_double_list",
    "Verif.C185_edge",
    "Verif.C185_exact"
   ],
   "note": "C185_constructor, C185_transition_matrix, C185_emission_matrix, C185_symmetric, C185_doubly, C185_accepted; C185_double for 53 bits; C185_exact relates the programs to those of C01. C185_edge: within one percent of the tolerance the answers can differ. Underflow is not modelled."
  },
  {
   "property": "C186",
   "status": "proved",
   "theorems": [
    "Verif.C186_row",
    "Verif.C186_sums",
    "Verif.C186_exceeded",
    "Verif.C186_random",
    "Verif.C186_double",
    "Verif.C186_instance"
   ],
   "note": "C186_row (any number of columns, also emission matrices), C186_sums, C186_random, C186_double. C186_exceeded: the drawn entries would be negative if the computed sum of the fixed entries exceeded one; with sums in another order than validate_mask this is possible, as NumPy adds eight and more numbers in blocks, which is not modelled. Which zeros are placed is left open."
  },
  {
   "property": "C187",
   "status": "proved",
   "theorems": [
    "Verif.C187_step",
    "Verif.C187_dirichlet",
    "Verif.C187_double",
    "Verif.C187_exact",
    "Verif.C187_instance"
   ],
   "note": "C187_step (one step of the loop), C187_dirichlet (accepted matrix), C187_double (binary64, up to four billion states), C187_exact (without rounding the matrix of C16), C187_instance. A row of draws that are all zero gives NaN in the code and is excluded. NumPy adds eight and more numbers in blocks, which is not modelled; underflow is not modelled."
  },
  {
   "property": "C188",
   "status": "partial",
   "theorems": [
    "Verif.C188_rates",
    "Verif.C188_stay",
    "Verif.C188_accuracy",
    "Verif.C188_probability",
    "Verif.C188_population_partial",
    "Verif.C188_absorbing",
    "Verif.C188_no_division_by_zero",
    "Verif.C188_exact",
    "Verif.C188_double_partial",
    "Verif.C188_negative",
    "Verif.C188_accepts"
   ],
   "note": "C188_population_partial assumes s <= 1 for the Moran model; C188_negative: for s = 2 the matrix of doubles has a negative entry. C188_rates, C188_stay (at least 1/(2n^2) without rounding, moran_margin), C188_accuracy (entries of the Moran model within (2n+84)u of the exact ones), C188_absorbing (the ends are absorbing without any error, for every s), C188_probability, C188_no_division_by_zero, C188_double_partial, C188_exact (the methods of C09 and C10), C188_accepts. The binomial probabilities of SciPy are only assumed to be rounded numbers that are not negative and not all zero (PmfSound, satisfied by rounded binomial probabilities). The blocks in which NumPy adds eight and more numbers, and underflow, are not modelled."
  },
  {
   "property": "C189",
   "status": "proved",
   "theorems": [
    "Verif.C189_entries",
    "Verif.C189_rouwenhorst",
    "Verif.C189_unit",
    "Verif.C189_accepted",
    "Verif.C189_exact",
    "Verif.C189_double",
    "Verif.C189_instance",
    "Verif.C189_accepts"
   ],
   "note": "C189_rouwenhorst, C189_entries (the recursion adds six roundings for each state), C189_exact (the method of C18), C189_double (doubles satisfy the assumptions), C189_accepts, C189_instance. C189_unit, C189_accepted: for autocorrelations that are not negative no entry exceeds one, so that matrices of doubles pass the checks of the constructor; for negative ones entries are only bounded by 1 + 12nu. Underflow is not modelled."
  },
  {
   "property": "C190",
   "status": "proved",
   "theorems": [
    "Verif.C190_ends",
    "Verif.C190_tauchen",
    "Verif.C190_accepted",
    "Verif.C190_instance",
    "Verif.C190_exact"
   ],
   "note": "C190_tauchen, C190_ends (each computed end is within 14Xu/sigma), C190_accepted, C190_exact (without rounding it is the exact model), C190_instance (three nodes in doubles). The nodes of np.linspace, the step and scipy.stats.norm.cdf enter as computed values with the assumptions stated in the theorem: a bound on the nodes, on the error of their spacing, monotonicity and accuracy of the distribution function; these are not proved of numpy and scipy. The computation of y_std and the validation of the arguments are not part of it. Underflow is not modelled."
  }
 ]
}