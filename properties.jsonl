{"id": "C01", "title": "The constructor accepts exactly the stochastic matrices", "statement": "MarkovChain(p, states) succeeds exactly when p is a square matrix with at least two rows, every entry lies in [0,1], every row sum is 1 up to the documented tolerance, and states (if given) are n distinct non-empty strings; otherwise it raises ValidationError and builds nothing. A chain that was constructed therefore always exposes a transition matrix with these features.", "quantifier": "every matrix size, every matrix of real entries, every list of labels", "why_tests_cant": "the set of accepted matrices is infinite and the acceptance test is a conjunction of tolerant comparisons; samples cannot show that no bad matrix passes and no good one is rejected", "anchors": ["pydtmc/markov_chain.py:MarkovChain.__init__", "pydtmc/validation.py:validate_transition_matrix", "pydtmc/validation.py:validate_labels_input"]}
{"id": "C02", "title": "Validation cannot be bypassed by a caller", "statement": "No user code calling MarkovChain(p, states) or HiddenMarkovModel(p, e, states, symbols) can obtain an object whose matrix was not validated.", "quantifier": "every user call site, whatever the name of the calling function", "why_tests_cant": "depends on the name of an arbitrary enclosing user function, which tests do not vary", "anchors": ["pydtmc/markov_chain.py:MarkovChain.__init__", "pydtmc/hidden_markov_model.py:HiddenMarkovModel.__init__", "pydtmc/utilities.py:get_caller", "pydtmc/utilities.py:get_instance_generators"]}
{"id": "C03", "title": "Numeric limits are enforced as documented", "statement": "A bounded integer or float argument is accepted exactly when it lies inside the documented interval, with the documented open or closed ends (e.g. steps >= 1, 0 < significance <= 0.2, 0 < w < 1); everything else raises ValidationError.", "quantifier": "every number and every (lower, upper) limit with open/closed flags", "why_tests_cant": "boundary behaviour for every numeric value and every pair of limits is infinite", "anchors": ["pydtmc/validation.py:_validate_limits", "pydtmc/validation.py:validate_integer", "pydtmc/validation.py:validate_float"]}
{"id": "C04", "title": "State arguments resolve to the right state", "statement": "An argument naming states (index or label, one or many) resolves to exactly the set of states named, sorted and without repetition; unknown labels, out-of-range indices, duplicates and mixed types are rejected; requested minimum sizes and proper-subset requirements hold for every accepted argument.", "quantifier": "every label list, every argument list of any length", "why_tests_cant": "the space of argument lists is unbounded and combines two naming schemes", "anchors": ["pydtmc/validation.py:validate_label", "pydtmc/validation.py:validate_labels_current", "pydtmc/validation.py:validate_sequence", "pydtmc/validation.py:validate_sequences"]}
{"id": "C05", "title": "Partitions accepted for lumping are partitions", "statement": "lump(partitions) accepts an argument only if its groups are disjoint, cover every state and appear in order, so the lumped chain has exactly one state per group and every original state belongs to exactly one group.", "quantifier": "every list of groups of states", "why_tests_cant": "infinitely many nested lists, including empty groups", "anchors": ["pydtmc/validation.py:validate_partitions", "pydtmc/generators.py:mc_lump"]}
{"id": "C06", "title": "from_matrix and from_graph normalise any nonnegative matrix to a chain", "statement": "from_matrix(m) and from_graph(g) return, for every nonnegative square matrix, a row-stochastic chain whose row i is proportional to row i of m, or uniform when row i of m is null.", "quantifier": "every size and every nonnegative matrix, including rows of arbitrarily small positive weight", "why_tests_cant": "rows of every magnitude must be handled; the tolerance branch is only visible on tiny values", "anchors": ["pydtmc/markov_chain.py:MarkovChain.from_matrix", "pydtmc/markov_chain.py:MarkovChain.from_graph"]}
{"id": "C07", "title": "Gambler's ruin chains", "statement": "gamblers_ruin(size, w) returns a row-stochastic chain in which the first and last state are absorbing and every interior state moves up with probability w and down with probability 1-w; the chain is absorbing, and from every interior state both ends are reachable.", "quantifier": "every size >= 3 and every 0 < w < 1", "why_tests_cant": "all sizes and all win probabilities", "anchors": ["pydtmc/markov_chain.py:MarkovChain.gamblers_ruin", "pydtmc/generators.py:mc_gamblers_ruin"]}
{"id": "C08", "title": "Urn models are stochastic and reversible with the classical stationary law", "statement": "urn_model(model, n) returns a row-stochastic birth-death chain; the Ehrenfest model is in detailed balance with the binomial(2n, 1/2) weights and the Bernoulli-Laplace model with the squared binomial weights.", "quantifier": "every n >= 1, both models", "why_tests_cant": "one statement for each n; tests fix n", "anchors": ["pydtmc/markov_chain.py:MarkovChain.urn_model", "pydtmc/generators.py:mc_urn_model"]}
{"id": "C09", "title": "The Moran model is a chain", "statement": "population_genetics_model('moran', n, s, u, v) returns a row-stochastic tri-diagonal matrix with absorbing ends for every accepted choice of parameters, whose rates are those of the Moran model with selection s, backward mutation rate u and forward mutation rate v.", "quantifier": "every n >= 1 and every accepted s, u, v", "why_tests_cant": "four unbounded parameters", "anchors": ["pydtmc/markov_chain.py:MarkovChain.population_genetics_model", "pydtmc/generators.py:mc_population_genetics_model"]}
{"id": "C10", "title": "The Wright-Fisher model is a chain", "statement": "population_genetics_model('wright-fisher', n, s, u, v) returns a row-stochastic matrix whose i-th row is a binomial law, for every accepted choice of parameters.", "quantifier": "every n >= 1 and every accepted s, u, v", "why_tests_cant": "four unbounded parameters and binomial coefficients of every order", "anchors": ["pydtmc/markov_chain.py:MarkovChain.population_genetics_model", "pydtmc/generators.py:mc_population_genetics_model"]}
{"id": "C11", "title": "Birth-death chains", "statement": "birth_death(p, q) returns, for every accepted pair of probability vectors, a row-stochastic tri-diagonal matrix whose super-diagonal is p and sub-diagonal is q.", "quantifier": "every size and all vectors p, q with q[0]=0, p[-1]=0 and p+q <= 1", "why_tests_cant": "all vectors of all lengths, including values below the tolerance", "anchors": ["pydtmc/markov_chain.py:MarkovChain.birth_death", "pydtmc/generators.py:mc_birth_death"]}
{"id": "C12", "title": "Bounded chains", "statement": "to_bounded_chain(condition) returns a row-stochastic chain that equals the original except for the two boundary rows; absorbing makes both ends absorbing, reflecting makes both ends move inward with probability one, and a number b makes the first state move inward with probability b and stay with 1-b, while the last state stays with probability b and moves inward with 1-b.", "quantifier": "every chain of every size and every boundary condition", "why_tests_cant": "all chains, all numeric conditions in [0,1]", "anchors": ["pydtmc/markov_chain.py:MarkovChain.to_bounded_chain", "pydtmc/generators.py:mc_bounded", "pydtmc/validation.py:validate_boundary_condition"]}
{"id": "C13", "title": "Lazy chains keep the long-run behaviour", "statement": "to_lazy_chain(w) returns a row-stochastic chain; with equal weights 0 < w < 1 it has exactly the same stationary distributions and communicating structure as the original, and every state has a self-loop so the chain is aperiodic.", "quantifier": "every chain and every weight vector", "why_tests_cant": "all chains, all stationary distributions", "anchors": ["pydtmc/markov_chain.py:MarkovChain.to_lazy_chain", "pydtmc/generators.py:mc_lazy"]}
{"id": "C14", "title": "Merging chains", "statement": "merge_with(other, gamma) returns a row-stochastic chain whose every transition probability is the gamma-weighted mean of the two originals; a distribution stationary for both is stationary for the merge.", "quantifier": "every pair of chains of equal size and every gamma in (0,1)", "why_tests_cant": "all pairs of chains", "anchors": ["pydtmc/markov_chain.py:MarkovChain.merge_with"]}
{"id": "C15", "title": "n-th order chains and n-step laws agree", "statement": "to_nth_order(k) returns a row-stochastic chain whose entry (i,j) is the total probability of all k-step paths from i to j; to_nth_order(a).to_nth_order(b) equals to_nth_order(a*b); redistribute(k, d) equals d times that matrix, for every k.", "quantifier": "every chain, every order and number of steps", "why_tests_cant": "unbounded path length", "anchors": ["pydtmc/markov_chain.py:MarkovChain.to_nth_order", "pydtmc/markov_chain.py:MarkovChain.redistribute", "pydtmc/simulations.py:mc_redistribute"]}
{"id": "C16", "title": "Dirichlet-process chains", "statement": "dirichlet_process returns a row-stochastic matrix whatever the random draws are.", "quantifier": "every size, every random stream", "why_tests_cant": "the outcome depends on arbitrary random draws", "anchors": ["pydtmc/markov_chain.py:MarkovChain.dirichlet_process", "pydtmc/generators.py:mc_dirichlet_process"]}
{"id": "C17", "title": "Random chains respect mask and zeros", "statement": "random(size, zeros, mask) returns, whatever the random draws are, a row-stochastic matrix that agrees with every assigned entry of the mask and has exactly the requested number of null entries among the unassigned ones.", "quantifier": "every size, every admissible mask and zero count, every random stream", "why_tests_cant": "random output; every mask must be respected on every draw", "anchors": ["pydtmc/markov_chain.py:MarkovChain.random", "pydtmc/generators.py:mc_random", "pydtmc/validation.py:validate_mask"]}
{"id": "C18", "title": "Rouwenhorst approximation", "statement": "approximation(size, 'rouwenhorst', ...) returns a row-stochastic matrix for every size and every autocorrelation accepted by the API, centro-symmetric, with the binomial(n-1,1/2) law as stationary distribution.", "quantifier": "every size >= 2 and every rho in [-1,1]", "why_tests_cant": "a recursion over the size", "anchors": ["pydtmc/markov_chain.py:MarkovChain.approximation", "pydtmc/generators.py:mc_approximation"]}
{"id": "C19", "title": "Tauchen approximation", "statement": "approximation(size, 'tauchen', ...) returns a row-stochastic matrix for every accepted parameter choice.", "quantifier": "every size, every rho, sigma, k accepted", "why_tests_cant": "all real parameters; the claim is a telescoping identity over the size", "anchors": ["pydtmc/markov_chain.py:MarkovChain.approximation", "pydtmc/generators.py:mc_approximation"]}
{"id": "C20", "title": "Canonical form is a relabelling", "statement": "to_canonical_form returns a chain that is the original up to a permutation of the states (labels moved with their rows and columns), in which transient states precede recurrent states and no recurrent state leads to a transient one; is_canonical is true of the result.", "quantifier": "every chain", "why_tests_cant": "all chains of all sizes", "anchors": ["pydtmc/markov_chain.py:MarkovChain.to_canonical_form", "pydtmc/markov_chain.py:MarkovChain.is_canonical", "pydtmc/generators.py:mc_canonical"]}
{"id": "C21", "title": "Subchains are closed", "statement": "to_subchain(states) either raises or returns a row-stochastic chain on exactly the states reachable from the requested ones, with unchanged transition probabilities and labels.", "quantifier": "every chain and every requested set of states", "why_tests_cant": "reachability is a fixpoint over arbitrary graphs", "anchors": ["pydtmc/markov_chain.py:MarkovChain.to_subchain", "pydtmc/generators.py:mc_sub"]}
{"id": "C22", "title": "Lumping is exact", "statement": "lump(partitions) succeeds exactly when the chain is strongly lumpable with respect to the partition (all states of a group have the same total probability of moving into each group); the result is row-stochastic and the group process of the original chain has exactly the k-step law of the lumped chain from every starting state, for every k.", "quantifier": "every chain and every partition", "why_tests_cant": "all partitions of all chains and every number of steps", "anchors": ["pydtmc/markov_chain.py:MarkovChain.lump", "pydtmc/generators.py:mc_lump"]}
{"id": "C23", "title": "lumping_partitions lists all lumpable partitions", "statement": "lumping_partitions returns every partition with respect to which the chain is lumpable, and only such partitions.", "quantifier": "every chain", "why_tests_cant": "completeness ranges over all partitions of all chains", "anchors": ["pydtmc/markov_chain.py:MarkovChain.lumping_partitions", "pydtmc/computations.py:find_lumping_partitions"]}
{"id": "C24", "title": "Maximum likelihood fitting", "statement": "fit_sequence('mle', ...) returns a row-stochastic matrix whose rows are the observed transition frequencies; no stochastic matrix gives the observed sequence a higher probability than the unsmoothed estimate.", "quantifier": "every sequence of every length over every state set, every competing matrix", "why_tests_cant": "optimality against every stochastic matrix", "anchors": ["pydtmc/markov_chain.py:MarkovChain.fit_sequence", "pydtmc/fitting.py:mc_fit_sequence"]}
{"id": "C25", "title": "Maximum a posteriori fitting", "statement": "fit_sequence('map', ...) returns a row-stochastic matrix for every accepted hyper-parameter and every sequence.", "quantifier": "every sequence and every hyper-parameter matrix accepted (entries >= 1)", "why_tests_cant": "all sequences and hyper-parameters, including the degenerate denominator", "anchors": ["pydtmc/markov_chain.py:MarkovChain.fit_sequence", "pydtmc/fitting.py:mc_fit_sequence", "pydtmc/validation.py:validate_hyperparameter"]}
{"id": "C26", "title": "Accessibility is reachability", "statement": "is_accessible(j, i) is true exactly when some path of positive-probability transitions leads from i to j; are_communicating is true exactly when both directions exist. This holds for chains of any size.", "quantifier": "every chain of every size, every pair of states", "why_tests_cant": "reachability on every graph; the failure needs chains of 18 or more states where machine integers wrap around", "anchors": ["pydtmc/markov_chain.py:MarkovChain.accessibility_matrix", "pydtmc/markov_chain.py:MarkovChain.is_accessible", "pydtmc/markov_chain.py:MarkovChain.are_communicating"]}
{"id": "C27", "title": "Communicating classes partition the states", "statement": "communicating_classes lists every state exactly once; two states are in the same class exactly when each is reachable from the other; classes are ordered by decreasing size and then by first state.", "quantifier": "every chain", "why_tests_cant": "all graphs", "anchors": ["pydtmc/markov_chain.py:MarkovChain.communicating_classes"]}
{"id": "C28", "title": "Recurrent and transient classification", "statement": "A state is reported recurrent exactly when every state reachable from it can reach it back, and transient otherwise; recurrent_classes and transient_classes partition communicating_classes; a class is recurrent exactly when no transition leaves it; at least one recurrent class always exists.", "quantifier": "every chain", "why_tests_cant": "all graphs; depends on the whole condensation", "anchors": ["pydtmc/markov_chain.py:MarkovChain.recurrent_classes", "pydtmc/markov_chain.py:MarkovChain.transient_classes", "pydtmc/markov_chain.py:MarkovChain.is_recurrent_state", "pydtmc/markov_chain.py:MarkovChain.is_transient_state"]}
{"id": "C29", "title": "is_absorbing", "statement": "is_absorbing is true exactly when at least one absorbing state exists and from every state some absorbing state is reachable.", "quantifier": "every chain", "why_tests_cant": "a fixpoint iteration over all graphs", "anchors": ["pydtmc/markov_chain.py:MarkovChain.is_absorbing", "pydtmc/markov_chain.py:MarkovChain.absorbing_states"]}
{"id": "C30", "title": "is_irreducible", "statement": "is_irreducible is true exactly when every state is reachable from every state.", "quantifier": "every chain", "why_tests_cant": "all graphs", "anchors": ["pydtmc/markov_chain.py:MarkovChain.is_irreducible"]}
{"id": "C31", "title": "is_regular decides primitivity", "statement": "is_regular is true exactly when some power of the transition matrix has only positive entries, although the code inspects a single power.", "quantifier": "every chain of every size", "why_tests_cant": "the property quantifies over all powers; the code relies on a bound on the exponent", "anchors": ["pydtmc/markov_chain.py:MarkovChain.is_regular"]}
{"id": "C32", "title": "Periods", "statement": "periods lists, in the order of communicating_classes, the period (greatest common divisor of the lengths of all return paths) of each class; period is their value for irreducible chains; is_aperiodic means every class has period 1.", "quantifier": "every chain, return paths of every length", "why_tests_cant": "the period is a gcd over infinitely many closed paths, and label order matters", "anchors": ["pydtmc/markov_chain.py:MarkovChain.periods", "pydtmc/markov_chain.py:MarkovChain.period", "pydtmc/markov_chain.py:MarkovChain.is_aperiodic", "pydtmc/computations.py:calculate_periods"]}
{"id": "C33", "title": "Cyclic classes", "statement": "For an irreducible chain of period d, cyclic_classes splits the states into d non-empty classes such that every transition goes from one class to the next one cyclically.", "quantifier": "every irreducible chain", "why_tests_cant": "all strongly connected graphs", "anchors": ["pydtmc/markov_chain.py:MarkovChain.cyclic_classes", "pydtmc/computations.py:find_cyclic_classes"]}
{"id": "C34", "title": "pi returns the stationary distribution", "statement": "For an irreducible chain, pi returns one vector: nonnegative, summing to one, invariant under the transition matrix, and it is the only such vector.", "quantifier": "every irreducible chain of every size", "why_tests_cant": "correctness of an in-place elimination for every size, and uniqueness among all vectors", "anchors": ["pydtmc/markov_chain.py:MarkovChain.pi", "pydtmc/computations.py:gth_solve"]}
{"id": "C35", "title": "pi of a reducible chain", "statement": "For a reducible chain, pi returns one stationary distribution for each recurrent class, null outside that class; every stationary distribution of the chain is a convex combination of them.", "quantifier": "every chain", "why_tests_cant": "quantifies over all stationary distributions of all chains", "anchors": ["pydtmc/markov_chain.py:MarkovChain.pi", "pydtmc/computations.py:gth_solve", "pydtmc/markov_chain.py:MarkovChain.recurrent_classes"]}
{"id": "C36", "title": "is_stochastically_monotone", "statement": "is_stochastically_monotone is true exactly when applying the transition matrix preserves the stochastic order of distributions (equivalently maps nondecreasing functions to nondecreasing functions).", "quantifier": "every chain, every pair of ordered distributions", "why_tests_cant": "quantifies over all pairs of distributions", "anchors": ["pydtmc/markov_chain.py:MarkovChain.is_stochastically_monotone"]}
{"id": "C37", "title": "is_reversible", "statement": "is_reversible is true exactly when the chain satisfies detailed balance with its stationary distribution, up to the documented tolerance.", "quantifier": "every chain", "why_tests_cant": "all chains", "anchors": ["pydtmc/markov_chain.py:MarkovChain.is_reversible"]}
{"id": "C38", "title": "fundamental_matrix counts visits", "statement": "For an absorbing chain with transient states, fundamental_matrix exists and its entry (i,j) is the expected total number of visits to transient state j from i, i.e. the sum over all k of the k-step probabilities.", "quantifier": "every absorbing chain", "why_tests_cant": "an infinite series for every chain", "anchors": ["pydtmc/markov_chain.py:MarkovChain.fundamental_matrix"]}
{"id": "C39", "title": "absorption_probabilities", "statement": "For an absorbing chain the absorption probabilities out of each transient state are nonnegative and sum to one over the absorbing states, and each is the limit of the k-step probability of being in that absorbing state.", "quantifier": "every absorbing chain", "why_tests_cant": "all chains; limits", "anchors": ["pydtmc/markov_chain.py:MarkovChain.absorption_probabilities", "pydtmc/measures.py:mc_absorption_probabilities"]}
{"id": "C40", "title": "mean_absorption_times", "statement": "For an absorbing chain with transient states, mean_absorption_times is the unique solution of the first-step equations t = 1 + Q t, and every component is at least one.", "quantifier": "every absorbing chain", "why_tests_cant": "all chains", "anchors": ["pydtmc/markov_chain.py:MarkovChain.mean_absorption_times", "pydtmc/measures.py:mc_mean_absorption_times"]}
{"id": "C41", "title": "committor_probabilities", "statement": "For every ergodic chain and disjoint sets A, B, the forward committor is 0 on A, 1 on B, within [0,1] everywhere and satisfies the one-step equations on all other states; these conditions determine it uniquely; the backward committor is the analogous quantity for the time-reversed chain.", "quantifier": "every ergodic chain and all disjoint sets of states", "why_tests_cant": "all chains and all pairs of sets", "anchors": ["pydtmc/markov_chain.py:MarkovChain.committor_probabilities", "pydtmc/measures.py:mc_committor_probabilities"]}
{"id": "C42", "title": "hitting_times", "statement": "hitting_times(targets) is 0 on the targets, infinite exactly on the states that may fail to reach the targets, and otherwise the unique finite solution of the first-step equations.", "quantifier": "every chain and every set of targets", "why_tests_cant": "all graphs and linear systems of every size", "anchors": ["pydtmc/markov_chain.py:MarkovChain.hitting_times", "pydtmc/measures.py:mc_hitting_times"]}
{"id": "C43", "title": "hitting_probabilities", "statement": "hitting_probabilities(targets) is the probability, for each starting state, of ever visiting the targets (the minimal nonnegative solution of the first-step equations).", "quantifier": "every chain and every set of targets", "why_tests_cant": "the first-step equations have many solutions; minimality quantifies over all of them", "anchors": ["pydtmc/markov_chain.py:MarkovChain.hitting_probabilities", "pydtmc/measures.py:mc_hitting_probabilities"]}
{"id": "C44", "title": "mean_first_passage_times_to", "statement": "For an ergodic chain, mean_first_passage_times_to() is zero on the diagonal and satisfies the first-step equations m_ij = 1 + sum_{k != j} p_ik m_kj for i != j; with explicit targets it is the unique solution of the corresponding system.", "quantifier": "every ergodic chain, every target set", "why_tests_cant": "all chains", "anchors": ["pydtmc/markov_chain.py:MarkovChain.mean_first_passage_times_to", "pydtmc/measures.py:mc_mean_first_passage_times_to"]}
{"id": "C45", "title": "mean_recurrence_times", "statement": "For an ergodic chain, mean_recurrence_times of a state equals the mean return time obtained from the first-step equations, i.e. the reciprocal of its stationary probability.", "quantifier": "every ergodic chain, however small its stationary probabilities", "why_tests_cant": "Kac's identity for every chain", "anchors": ["pydtmc/markov_chain.py:MarkovChain.mean_recurrence_times", "pydtmc/measures.py:mc_mean_recurrence_times"]}
{"id": "C46", "title": "expected_rewards", "statement": "expected_rewards(steps, rewards) is, for each starting state, the expected total of the rewards collected at times 0..steps.", "quantifier": "every chain, steps and reward vector", "why_tests_cant": "sum over all paths of unbounded length", "anchors": ["pydtmc/markov_chain.py:MarkovChain.expected_rewards", "pydtmc/measures.py:mc_expected_rewards"]}
{"id": "C47", "title": "expected_transitions", "statement": "expected_transitions(steps, d) has as entry (i,j) the expected number of i -> j transitions in the first `steps` steps from d; in particular all entries sum to `steps`.", "quantifier": "every chain, number of steps and initial distribution", "why_tests_cant": "every number of steps; the error appears only from 3 steps on", "anchors": ["pydtmc/markov_chain.py:MarkovChain.expected_transitions", "pydtmc/measures.py:mc_expected_transitions"]}
{"id": "C48", "title": "first_passage_probabilities", "statement": "first_passage_probabilities(steps, i, targets) gives for every t <= steps the probability that the first visit to the targets after time 0 happens at step t; the sum over t never exceeds one.", "quantifier": "every chain, number of steps and set of targets", "why_tests_cant": "all paths of all lengths", "anchors": ["pydtmc/markov_chain.py:MarkovChain.first_passage_probabilities", "pydtmc/measures.py:mc_first_passage_probabilities"]}
{"id": "C49", "title": "first_passage_reward", "statement": "first_passage_reward(steps, i, targets, r) is the expected total reward collected at times 1..steps along paths that avoid the targets.", "quantifier": "every chain, steps, targets, rewards", "why_tests_cant": "all paths of all lengths", "anchors": ["pydtmc/markov_chain.py:MarkovChain.first_passage_reward", "pydtmc/measures.py:mc_first_passage_reward"]}
{"id": "C50", "title": "mixing_time", "statement": "mixing_time(d, jump, cutoff) returns the least k >= 1 after which the distance to the stationary distribution is at most the cutoff, and the distance stays within the cutoff ever after; None is returned only if the cutoff is not met within the iteration limit.", "quantifier": "every ergodic chain and initial distribution", "why_tests_cant": "all later times", "anchors": ["pydtmc/markov_chain.py:MarkovChain.mixing_time", "pydtmc/measures.py:mc_mixing_time"]}
{"id": "C51", "title": "kemeny_constant and fundamental matrix structure", "statement": "For an absorbing chain kemeny_constant is the trace of fundamental_matrix and is at least the number of transient states.", "quantifier": "every absorbing chain", "why_tests_cant": "all chains", "anchors": ["pydtmc/markov_chain.py:MarkovChain.kemeny_constant", "pydtmc/markov_chain.py:MarkovChain.fundamental_matrix"]}
{"id": "C52", "title": "entropy_rate", "statement": "entropy_rate is between 0 and the logarithm of the number of states, and 0 exactly for deterministic transitions out of the stationary support.", "quantifier": "every chain with a unique stationary distribution", "why_tests_cant": "inequality between real functions for all chains", "anchors": ["pydtmc/markov_chain.py:MarkovChain.entropy_rate", "pydtmc/markov_chain.py:MarkovChain.entropy_rate_normalized"]}
{"id": "C53", "title": "simulate only follows possible transitions", "statement": "simulate(steps, ...) returns a walk that starts at the initial state, uses only transitions of positive probability, has at most steps+1 states, and stops exactly at the first visit of final_state (after the start) or after `steps` transitions, for every random stream.", "quantifier": "every chain, every number of steps, every random stream", "why_tests_cant": "all random streams and walks of unbounded length", "anchors": ["pydtmc/markov_chain.py:MarkovChain.simulate", "pydtmc/simulations.py:mc_simulate", "pydtmc/markov_chain.py:MarkovChain.next"]}
{"id": "C54", "title": "predict returns a most probable continuation", "statement": "predict(steps, i) returns the most probable sequence of states of the given length from i when it is unique, and None when it is ambiguous.", "quantifier": "every chain and number of steps", "why_tests_cant": "compares against exponentially many sequences", "anchors": ["pydtmc/markov_chain.py:MarkovChain.predict", "pydtmc/simulations.py:mc_predict"]}
{"id": "C55", "title": "sequence_probability", "statement": "sequence_probability(w) is the probability that the chain follows w given its first state: the product of the transition probabilities; the probabilities of all continuations of a walk by k steps sum to its own probability.", "quantifier": "every walk of every length", "why_tests_cant": "all walks", "anchors": ["pydtmc/markov_chain.py:MarkovChain.sequence_probability", "pydtmc/simulations.py:mc_sequence_probability"]}
{"id": "C56", "title": "HMM decoding: likelihood and posteriors", "statement": "decode(symbols) returns the log of the exact likelihood (sum over all hidden paths of the joint probability); posterior columns sum to one and equal the conditional law of the hidden state given all symbols; scaled and unscaled recursions agree.", "quantifier": "every HMM and every symbol sequence", "why_tests_cant": "sum over exponentially many hidden paths, every length", "anchors": ["pydtmc/hidden_markov_model.py:HiddenMarkovModel.decode", "pydtmc/measures.py:hmm_decode"]}
{"id": "C57", "title": "Viterbi prediction", "statement": "predict('viterbi', symbols) returns a hidden path of maximal joint probability with the symbols and the logarithm of that probability, and None only if no hidden path can emit the symbols.", "quantifier": "every HMM and symbol sequence", "why_tests_cant": "maximality among exponentially many paths", "anchors": ["pydtmc/hidden_markov_model.py:HiddenMarkovModel.predict", "pydtmc/simulations.py:hmm_predict"]}
{"id": "C58", "title": "HMM simulation emits only possible events", "statement": "simulate and next of a hidden Markov model only use transitions and emissions of positive probability, for every random stream.", "quantifier": "every HMM, number of steps and random stream", "why_tests_cant": "all random streams, including the extreme draw 0.0", "anchors": ["pydtmc/hidden_markov_model.py:HiddenMarkovModel.simulate", "pydtmc/hidden_markov_model.py:HiddenMarkovModel.next", "pydtmc/simulations.py:hmm_simulate"]}
{"id": "C59", "title": "HMM restriction", "statement": "restrict(states, symbols) returns a model on exactly the requested states and symbols, with stochastic matrices proportional to the original rows.", "quantifier": "every HMM, every subset of states and symbols", "why_tests_cant": "all pairs of subsets", "anchors": ["pydtmc/hidden_markov_model.py:HiddenMarkovModel.restrict", "pydtmc/generators.py:hmm_restrict"]}
{"id": "C60", "title": "HMM estimation", "statement": "estimate(...) returns stochastic matrices whose rows are the observed transition and emission frequencies (uniform when nothing was observed).", "quantifier": "every pair of sequences", "why_tests_cant": "all sequences", "anchors": ["pydtmc/hidden_markov_model.py:HiddenMarkovModel.estimate", "pydtmc/generators.py:hmm_estimate"]}
{"id": "C61", "title": "Test statistics are well-formed", "statement": "The chi-square statistics reported by the assessment functions are nonnegative, and every observed transition is counted exactly once in the tables they are computed from. The reported p-value is the probability that the chi-square distribution gives to larger values, and the hypothesis is rejected exactly when it is below the significance.", "quantifier": "every sequence and state set", "why_tests_cant": "all sequences", "anchors": ["pydtmc/assessments.py:assess_first_order", "pydtmc/assessments.py:assess_homogeneity", "pydtmc/assessments.py:assess_stationarity", "pydtmc/assessments.py:assess_theoretical_compatibility", "pydtmc/computations.py:chi2_contingency"]}
{"id": "C62", "title": "Dictionary round trip", "statement": "MarkovChain.from_dictionary(mc.to_dictionary()) equals mc (same labels in the same order, same probabilities), and likewise for hidden Markov models.", "quantifier": "every chain and HMM with any distinct labels", "why_tests_cant": "all sizes and labels, including unusual ones", "anchors": ["pydtmc/markov_chain.py:MarkovChain.to_dictionary", "pydtmc/markov_chain.py:MarkovChain.from_dictionary", "pydtmc/hidden_markov_model.py:HiddenMarkovModel.to_dictionary", "pydtmc/hidden_markov_model.py:HiddenMarkovModel.from_dictionary"]}
{"id": "C63", "title": "File round trip", "statement": "from_file(path) after to_file(path) returns an equal object for every accepted file format and every chain.", "quantifier": "every chain with any accepted labels", "why_tests_cant": "labels are arbitrary strings", "anchors": ["pydtmc/markov_chain.py:MarkovChain.to_file", "pydtmc/markov_chain.py:MarkovChain.from_file", "pydtmc/files_io.py:write_txt", "pydtmc/files_io.py:read_txt"]}
{"id": "C64", "title": "A crash while saving is never read back as another chain", "statement": "If writing a text file stops at any point, from_file on the truncated file either raises or returns the chain that was being written.", "quantifier": "every chain and every crash point", "why_tests_cant": "every prefix of every file", "anchors": ["pydtmc/markov_chain.py:MarkovChain.to_file", "pydtmc/files_io.py:write_txt", "pydtmc/files_io.py:read_txt"]}
{"id": "C65", "title": "Graph round trip", "statement": "from_graph(mc.to_graph()) equals mc.", "quantifier": "every chain", "why_tests_cant": "all chains and labels", "anchors": ["pydtmc/markov_chain.py:MarkovChain.to_graph", "pydtmc/markov_chain.py:MarkovChain.from_graph", "pydtmc/utilities.py:build_mc_graph"]}
{"id": "C66", "title": "Cached properties are computed at most once under any thread schedule", "statement": "When several threads read a lazily computed property of one chain, its computation runs at most once, every read returns that one value, and no schedule deadlocks.", "quantifier": "every number of threads, every program of reads, every interleaving", "why_tests_cant": "schedules cannot be enumerated by tests", "anchors": ["pydtmc/decorators.py:cached_property"]}
{"id": "C67", "title": "Lazily computed attributes are read-only", "statement": "Assigning or deleting a computed property raises and leaves every later read unchanged.", "quantifier": "every sequence of reads, assignments and deletions", "why_tests_cant": "all histories", "anchors": ["pydtmc/decorators.py:cached_property"]}
{"id": "C68", "title": "Aliases are faithful", "statement": "Every declared alias behaves exactly as the member it stands for, aliases never hide existing members or each other, and ambiguous declarations are rejected at class creation.", "quantifier": "every class with any set of alias declarations", "why_tests_cant": "all sets of declarations", "anchors": ["pydtmc/decorators.py:aliased", "pydtmc/decorators.py:object_mark"]}
{"id": "C69", "title": "Equality and hash are consistent", "statement": "Two equal models have equal hashes, so sets and dictionaries of models behave.", "quantifier": "every pair of models", "why_tests_cant": "bit-level representation of floats (signed zero)", "anchors": ["pydtmc/markov_chain.py:MarkovChain.__eq__", "pydtmc/markov_chain.py:MarkovChain.__hash__", "pydtmc/hidden_markov_model.py:HiddenMarkovModel.__eq__"]}
{"id": "C70", "title": "A chain never changes after construction", "statement": "No sequence of public reads and writes through values returned by the API changes what the chain later reports.", "quantifier": "every history of API calls and of mutations of returned objects", "why_tests_cant": "all histories and aliasing patterns", "anchors": ["pydtmc/markov_chain.py:MarkovChain.p", "pydtmc/markov_chain.py:MarkovChain.states", "pydtmc/markov_chain.py:MarkovChain.conditional_probabilities", "pydtmc/markov_chain.py:MarkovChain.to_matrix"]}
{"id": "C71", "title": "Generated labels are distinct", "statement": "When labels are not given, the generated labels are pairwise distinct and as many as the states, for every size and prefix.", "quantifier": "every size and prefix", "why_tests_cant": "all sizes", "anchors": ["pydtmc/utilities.py:create_labels"]}
{"id": "C72", "title": "fit_function produces a chain", "statement": "fit_function(quadrature, states, f, interval) returns a row-stochastic matrix for every quadrature rule and every accepted function; the quadrature weights of every rule sum to the length of the interval and its nodes lie in the interval.", "quantifier": "every function, interval and number of states", "why_tests_cant": "all functions and sizes", "anchors": ["pydtmc/markov_chain.py:MarkovChain.fit_function", "pydtmc/fitting.py:mc_fit_function"]}
{"id": "C73", "title": "HMM fitting keeps the model stochastic", "statement": "fit(...) returns stochastic transition and emission matrices after at most the documented number of iterations, for every data set and every accepted initial guess.", "quantifier": "every data set, every guess", "why_tests_cant": "unbounded iterative algorithm", "anchors": ["pydtmc/hidden_markov_model.py:HiddenMarkovModel.fit", "pydtmc/fitting.py:hmm_fit"]}
{"id": "C74", "title": "Posterior prediction is optimal", "statement": "predict('map', symbols, status) returns, for every symbol, a hidden state of maximal posterior probability given all symbols, together with the logarithm of the likelihood of the symbols; it returns None exactly when decode returns None.", "quantifier": "every model, symbol sequence and initial status", "why_tests_cant": "all models and sequences", "anchors": ["pydtmc/hidden_markov_model.py:HiddenMarkovModel.predict", "pydtmc/simulations.py:hmm_predict"]}
{"id": "C75", "title": "HMM constructor soundness and completeness", "statement": "HiddenMarkovModel(p, e, states, symbols) succeeds exactly on matrices and names meeting the documented requirements (square transition matrix of size at least two, emission matrix with as many rows and at least two columns, entries in [0,1], rows summing to one up to the tolerance, distinct nonblank names, disjoint state and symbol names) and exposes exactly the given matrices and names, or the default names P1.. and E1...", "quantifier": "every argument of every type", "why_tests_cant": "unbounded argument space", "anchors": ["pydtmc/hidden_markov_model.py:HiddenMarkovModel.__init__", "pydtmc/validation.py:validate_emission_matrix"]}
{"id": "C76", "title": "Baum-Welch fitting never decreases the likelihood", "statement": "In fit('baum-welch', ...) with exactly stochastic guesses, every iteration gives the sequences it takes into account (those without a symbol of conditional probability below 1e-300) at least the total probability they had before; if no sequence is ever left out, the returned model is at least as likely as the guess.", "quantifier": "every data set, every guess, every number of iterations", "why_tests_cant": "all data sets and guesses; unbounded iteration", "anchors": ["pydtmc/hidden_markov_model.py:HiddenMarkovModel.fit", "pydtmc/fitting.py:hmm_fit"]}
{"id": "C77", "title": "Compatibility with a chain uses the likelihood ratio", "statement": "The statistic of assess_theoretical_compatibility is the likelihood ratio statistic 2 * sum f_ij log(f_ij / (f_i p_ij)) where f_i is the number of transitions out of i.", "quantifier": "every chain and every sequence that the chain can produce", "why_tests_cant": "the wrong denominator coincides with the right one for closed sequences and nearly so for long ones", "anchors": ["pydtmc/assessments.py:assess_theoretical_compatibility"]}
{"id": "C78", "title": "Degrees of freedom of the Markov property test depend on states only", "statement": "The degrees of freedom reported by assess_markov_property are the number of distinct triples minus the number of distinct pairs plus the number of distinct states minus one.", "quantifier": "every sequence and every set of labels", "why_tests_cant": "the value is wrong only for labels whose concatenations coincide", "anchors": ["pydtmc/assessments.py:assess_markov_property"]}
{"id": "C79", "title": "Stationarity is rejected only if blocks differ", "statement": "assess_stationarity does not reject a sequence whose blocks have equal transition frequencies.", "quantifier": "every sequence, number of blocks and significance", "why_tests_cant": "universally quantified over sequences and block numbers", "anchors": ["pydtmc/assessments.py:assess_stationarity"]}
{"id": "C80", "title": "Dictionaries describe chains", "statement": "A chain built by from_dictionary satisfies the requirements of the constructor, its labels are exactly the labels occurring in the keys, and each transition probability is the value given for that pair of labels.", "quantifier": "every accepted dictionary", "why_tests_cant": "all dictionaries with any number of labels", "anchors": ["pydtmc/markov_chain.py:MarkovChain.from_dictionary", "pydtmc/validation.py:validate_dictionary"]}
{"id": "C81", "title": "Methods that store their result compute it once under any thread schedule", "statement": "When several threads call absorption_probabilities, mean_absorption_times, mean_number_visits or mean_recurrence_times of one chain, the result is computed once, all calls return it, and no call fails to find the stored result.", "quantifier": "every number of threads and every interleaving", "why_tests_cant": "schedules cannot be enumerated by tests", "anchors": ["pydtmc/markov_chain.py:MarkovChain.absorption_probabilities", "pydtmc/markov_chain.py:MarkovChain.mean_absorption_times", "pydtmc/markov_chain.py:MarkovChain.mean_number_visits", "pydtmc/markov_chain.py:MarkovChain.mean_recurrence_times"]}
{"id": "C82", "title": "mean_number_visits returns the expected numbers of visits", "statement": "For every chain and every pair of states, the entry of mean_number_visits is the sum over all k >= 1 of the probability of being in the second state after k steps from the first: finite exactly when that series converges, and then equal to its sum.", "quantifier": "every chain, every pair of states", "why_tests_cant": "an infinite series for arbitrary class structures; tests compare a few matrices", "anchors": ["pydtmc/measures.py:mc_mean_number_visits", "pydtmc/markov_chain.py:MarkovChain.mean_number_visits"]}
{"id": "C83", "title": "sensitivity is the derivative of the stationary distribution", "statement": "For an irreducible chain and a state, the matrix returned by sensitivity predicts the change of the stationary probability of the state under any change of the transition matrix up to a second-order error; None is returned exactly for chains that are not irreducible.", "quantifier": "every irreducible chain, every state, every perturbed transition matrix", "why_tests_cant": "a bound over all perturbations", "anchors": ["pydtmc/measures.py:mc_sensitivity", "pydtmc/markov_chain.py:MarkovChain.sensitivity"]}
{"id": "C84", "title": "Time correlations", "statement": "For a chain with a unique stationary distribution, time_correlations returns for every given time point t the stationary mean of the product of the first sequence's observation counts at time 0 and the second sequence's counts at time t; a chain with several stationary distributions gives None.", "quantifier": "every valid chain, every pair of sequences, every set of time points", "why_tests_cant": "the result is computed by repeated products or by an eigendecomposition depending on the largest time point, so no finite set of time points or chains covers both", "anchors": ["pydtmc/measures.py:mc_time_correlations", "pydtmc/markov_chain.py:MarkovChain.time_correlations", "pydtmc/computations.py:rdl_decomposition", "pydtmc/validation.py:validate_time_points"]}
{"id": "C85", "title": "Time relaxations", "statement": "For a chain with a unique stationary distribution, time_relaxations returns for every given time point t the mean of the sequence's observation counts after t steps from the initial distribution; a chain with several stationary distributions gives None.", "quantifier": "every valid chain, every sequence, every initial distribution, every set of time points", "why_tests_cant": "the result is computed by repeated products or by an eigendecomposition depending on the largest time point", "anchors": ["pydtmc/measures.py:mc_time_relaxations", "pydtmc/markov_chain.py:MarkovChain.time_relaxations", "pydtmc/computations.py:rdl_decomposition"]}
{"id": "C86", "title": "Second largest eigenvalue modulus and the rates built on it", "statement": "For an ergodic chain the second largest eigenvalue modulus is below one and spectral_gap, relaxation_rate and mixing_rate are 1-s, 1/(1-s) and -1/log(s); for other chains they are None.", "quantifier": "every valid chain", "why_tests_cant": "that one is a simple eigenvalue and the only one of modulus one is a statement about all ergodic matrices, and the filter uses a tolerance", "anchors": ["pydtmc/computations.py:slem", "pydtmc/computations.py:eigenvalues_sorted", "pydtmc/markov_chain.py:MarkovChain.spectral_gap", "pydtmc/markov_chain.py:MarkovChain.relaxation_rate", "pydtmc/markov_chain.py:MarkovChain.mixing_rate"]}
{"id": "C87", "title": "Implied timescales", "statement": "For an ergodic chain implied_timescales lists infinity and then -1/log|z| for all other eigenvalues z by decreasing modulus, all finite and non-negative; for other chains it is None.", "quantifier": "every valid chain", "why_tests_cant": "it depends on one being a simple and dominant eigenvalue of every ergodic matrix", "anchors": ["pydtmc/markov_chain.py:MarkovChain.implied_timescales", "pydtmc/computations.py:eigenvalues_sorted"]}
{"id": "C88", "title": "Ergodic and regular chains agree", "statement": "is_ergodic (one communicating class, period one) holds exactly when is_regular (a single power of the matrix is positive) holds.", "quantifier": "every valid chain", "why_tests_cant": "the equivalence needs a statement about all large powers of every matrix", "anchors": ["pydtmc/markov_chain.py:MarkovChain.is_ergodic", "pydtmc/markov_chain.py:MarkovChain.is_regular"]}
{"id": "C89", "title": "is_symmetric and is_doubly_stochastic", "statement": "is_symmetric holds exactly for symmetric transition matrices, is_doubly_stochastic exactly for chains whose uniform distribution is stationary, and the first implies the second.", "quantifier": "every valid chain", "why_tests_cant": "tests use matrices that are exactly symmetric or far from it; the answers for nearly symmetric matrices and their consistency are not tried", "anchors": ["pydtmc/markov_chain.py:MarkovChain.is_symmetric", "pydtmc/markov_chain.py:MarkovChain.is_doubly_stochastic"]}
{"id": "C90", "title": "density", "statement": "density is the fraction of the ordered pairs of different states with a possible transition; it is between 0 and 1, 0 exactly if all states are absorbing and 1 exactly if all transitions between different states are possible.", "quantifier": "every valid chain", "why_tests_cant": "characterisation of the extreme values over all chains", "anchors": ["pydtmc/markov_chain.py:MarkovChain.density"]}
{"id": "C91", "title": "topological_entropy", "statement": "topological_entropy is the exponential growth rate of the number of possible paths, is between 0 and the logarithm of the number of states, and bounds the entropy rate of every stationary distribution.", "quantifier": "every valid chain", "why_tests_cant": "a limit over path lengths for every chain", "anchors": ["pydtmc/markov_chain.py:MarkovChain.topological_entropy", "pydtmc/computations.py:eigenvalues_sorted"]}
{"id": "C92", "title": "incidence_matrix", "statement": "incidence_matrix is the incidence matrix of the transition graph: the entry of a state and an ordered pair of states is 1 exactly if the pair is a possible transition between different states, one of which is the state.", "quantifier": "every valid chain", "why_tests_cant": "the tests compare one matrix with a stored value", "anchors": ["pydtmc/markov_chain.py:MarkovChain.incidence_matrix"]}
{"id": "C93", "title": "cyclic_states and is_cyclic_state", "statement": "The cyclic states of an irreducible chain are all states in their order, those of a reducible chain none, and is_cyclic_state agrees.", "quantifier": "every valid chain and every argument that names a state", "why_tests_cant": "depends on the cyclic classes of every chain forming a partition", "anchors": ["pydtmc/markov_chain.py:MarkovChain.cyclic_states", "pydtmc/markov_chain.py:MarkovChain.is_cyclic_state"]}
{"id": "C94", "title": "transition_probability and emission_probability", "statement": "transition_probability(target, origin) is the probability that the next state is the target given the origin, emission_probability(symbol, state) the probability of the symbol given the state, for names and for indices, and other arguments are rejected.", "quantifier": "every valid chain or hidden model and every argument", "why_tests_cant": "the order of the arguments only shows for asymmetric matrices, and all ways of naming a state have to agree", "anchors": ["pydtmc/markov_chain.py:MarkovChain.transition_probability", "pydtmc/hidden_markov_model.py:HiddenMarkovModel.transition_probability", "pydtmc/hidden_markov_model.py:HiddenMarkovModel.emission_probability"]}
{"id": "C95", "title": "is_ergodic and is_regular of hidden models", "statement": "A hidden model is ergodic exactly if some number of steps allows every combination of state and symbol from every first state, and regular exactly if functions of the symbol are determined by their expectations in the states.", "quantifier": "every valid hidden model", "why_tests_cant": "quantifies over all powers of the transition matrix and all functions of the symbol", "anchors": ["pydtmc/hidden_markov_model.py:HiddenMarkovModel.is_ergodic", "pydtmc/hidden_markov_model.py:HiddenMarkovModel.is_regular"]}
{"id": "C96", "title": "Bottom-up aggregation returns an aggregated chain", "statement": "For an ergodic chain and 2 <= s < n, aggregate(s, 'spectral-bottom-up') returns a chain with exactly s states whose transition probabilities are those between the groups of some assignment of the states to s non-empty groups, in equilibrium: rows sum to one and the stationary probability of a group is the sum over its members.", "quantifier": "every ergodic chain, every s, every divergence, every result of the eigenvector routine", "why_tests_cant": "The groups depend on signs of eigenvectors of all sub-blocks; a test fixes one matrix and one LAPACK build. The failure needs a block whose second eigenvector has no negative entry.", "anchors": ["pydtmc/generators.py:192-275", "pydtmc/markov_chain.py:1020-1066"]}
{"id": "C97", "title": "Top-down aggregation returns an aggregated chain with s states", "statement": "For an ergodic chain and 2 <= s < n, aggregate(s, 'spectral-top-down') ends and returns a chain with s states that is an aggregation of the given chain.", "quantifier": "every ergodic chain, every s, every divergence, every result of the eigenvector routine", "why_tests_cant": "The defects need merged columns that are not adjacent, or blocks with a nonnegative eigenvector; tests use matrices where neither occurs, and an endless loop cannot be observed by a test.", "anchors": ["pydtmc/generators.py:278-381", "pydtmc/markov_chain.py:1020-1066"]}
{"id": "C98", "title": "The divergence of an aggregation is a relative entropy", "statement": "kullback_leibler_divergence of a partition is the relative entropy rate between the chain and the chain lifted from the aggregation; it is nonnegative, and zero exactly if the chain equals the lifted chain. The bottom-up algorithm takes the candidate with the smallest divergence.", "quantifier": "every stochastic matrix with positive stationary distribution and every list of groups that partitions the states", "why_tests_cant": "Nonnegativity with its equality case is a statement about all matrices and all partitions.", "anchors": ["pydtmc/computations.py:298-312", "pydtmc/generators.py:257-266"]}
{"id": "C99", "title": "Mean first passage times between sets", "statement": "mean_first_passage_times_between(origins, targets) is the mean of the passage time to the targets for the chain started in equilibrium conditioned on the origins; chains that are not ergodic give None.", "quantifier": "every ergodic chain and every pair of accepted state arguments", "why_tests_cant": "The weights and the passage times have to be right for all chains and all pairs of subsets.", "anchors": ["pydtmc/measures.py:331-345", "pydtmc/markov_chain.py:1531-1556"]}
{"id": "C100", "title": "Files that were not written by the library", "statement": "A chain or hidden Markov model read by from_file has exactly the states, symbols and probabilities that the records, objects, lines or cells of the file state, with the last of several values for a pair; malformed files are rejected and what is accepted satisfies the requirements of the constructor.", "quantifier": "every contents of a TXT, JSON, XML or CSV file and every number parser", "why_tests_cant": "Tests only read files that the library wrote; the space of foreign files is unbounded.", "anchors": ["pydtmc/files_io.py:68-169", "pydtmc/files_io.py:182-333", "pydtmc/markov_chain.py:2388-2461", "pydtmc/hidden_markov_model.py:710-798"]}
{"id": "C101", "title": "Hidden Markov models from graphs", "statement": "from_graph returns a valid model whose states and symbols are the nodes of layers one and zero in their order, and whose rows are the weights of the P and E edges divided by their sums, uniform for states without such edges.", "quantifier": "every directed graph without parallel edges, with layered nodes and typed weighted edges", "why_tests_cant": "Tests only use graphs produced by to_graph, whose weights are already normalised.", "anchors": ["pydtmc/hidden_markov_model.py:803-862", "pydtmc/validation.py:348-408"]}
{"id": "C102", "title": "Hidden Markov models from matrices", "statement": "from_matrices returns a valid model whose matrices are the given ones with each row divided by its sum, and with uniform rows in place of null rows; nonnegative matrices of matching sizes are accepted.", "quantifier": "every pair of arguments", "why_tests_cant": "The claim covers all nonnegative matrices of all sizes, including null rows.", "anchors": ["pydtmc/hidden_markov_model.py:867-914", "pydtmc/validation.py:670-694"]}
{"id": "C103", "title": "Random hidden Markov models", "statement": "random returns matrices that keep the assigned entries of the masks, have nonnegative entries and rows that sum to one, and have the requested numbers of null probabilities.", "quantifier": "all sizes, masks, requested numbers of zeros and non-null random draws", "why_tests_cant": "The draws are random and the masks and sizes unbounded.", "anchors": ["pydtmc/generators.py:94-166", "pydtmc/hidden_markov_model.py:918-973", "pydtmc/validation.py:646-667"]}
{"id": "C104", "title": "The closest reversible chain", "statement": "closest_reversible returns the chain whose matrix is, among all stochastic matrices in detailed balance with the given distribution, the closest one in the Frobenius norm or in the weighted Frobenius norm; the distribution is stationary for it.", "quantifier": "every chain, distribution (null probabilities included), norm and optimiser that meets its contract", "why_tests_cant": "Closest is a statement about all competing matrices, and the basis, the constraints and the objective have to be right for all sizes and patterns of null probabilities.", "anchors": ["pydtmc/generators.py:624-792", "pydtmc/markov_chain.py:1093-1135"]}
{"id": "C105", "title": "Adda-Cooper chains have the true probabilities to move between equally likely intervals", "statement": "An accepted Adda-Cooper approximation returns a valid chain whose states stand for consecutive intervals of the real line. The stationary distribution of the autoregressive process gives each interval the probability 1/n, and an entry of the matrix is the probability that the process, started from its stationary distribution conditioned to the interval of the row, moves in one step into the interval of the column. Correlations one and minus one pass the validation but raise.", "quantifier": "for every size, mean, positive deviation, correlation between minus one and one, and every inverse of the normal distribution function", "why_tests_cant": "Tests compare a few matrices with stored ones; the statement is about the probabilities of a continuous process for all parameters.", "anchors": ["pydtmc/generators.py:386-434", "pydtmc/markov_chain.py:2118-2172"]}
{"id": "C106", "title": "Tauchen-Hussey chains weigh Gauss-Hermite nodes by the density of the process", "statement": "An accepted Tauchen-Hussey approximation that does not contain nan is a valid chain. Its states are nodes placed symmetrically at mean plus 2 k z, where each z is the last Newton step for the Hermite function, and each row is proportional to weight times the density of the innovation divided by the density of the reference distribution. The source disagrees with the method: nodes have twice the variance they should have, so the chain is more persistent than the process; correlations of absolute value one without k give nan.", "quantifier": "for every size, mean, positive deviation, correlation and k", "why_tests_cant": "Tests compare a few matrices with stored results of the same code, so a wrong scale of the nodes is invisible to them; the statement holds for all parameters.", "anchors": ["pydtmc/generators.py:441-521", "pydtmc/markov_chain.py:2118-2172"]}
{"id": "C107", "title": "A flow plot shows the redistributed probabilities", "statement": "plot_flow draws one column of bars for every step of the redistribution and bands between neighbouring columns. The bars of a column have heights equal to the probabilities of the states after that step (down to a smallest drawn height), are stacked without overlapping, and the bands between two columns partition the bars on the left according to the transition probabilities.", "quantifier": "every chain, every number of steps, every accepted initial status and interval", "why_tests_cant": "a plot is usually compared as an image for one small chain; the geometry depends on the number of columns and states and on how probabilities add up", "anchors": ["pydtmc/plotting.py:329-524"]}
{"id": "C108", "title": "A trellis plot shows the possible transitions and the most probable path", "statement": "plot_trellis draws one column per simulated symbol; an edge joins two nodes of neighbouring columns exactly when the transition is possible (from the initial state in the first column), it has the colour of the path exactly when both ends are on the most probable path, and the numbers in a column are the forward (backward) probabilities for the symbol in its header.", "quantifier": "every hidden Markov model, every number of steps, every initial state, every simulated run, both drawing modes", "why_tests_cant": "the image depends on random symbols; the wrong edges appear only for certain initial states and the wrong colours only for one drawing mode and asymmetric transitions", "anchors": ["pydtmc/plotting.py:1273-1546"]}
{"id": "C109", "title": "A graph plot shows the chain", "statement": "plot_graph shows one node per state with its label, coloured so that two states have the same colour exactly when they communicate and marked by a second shape exactly when the state is transient; an edge is drawn exactly for each positive transition probability and its label is that probability rounded to at most four decimals, shown as zero only for an impossible transition. For a hidden Markov model there is also one node per symbol and one edge per positive emission probability.", "quantifier": "every Markov chain, every hidden Markov model, all drawing options, every rounding to nearest", "why_tests_cant": "images are not compared by tests; the repeated colours appear only for ten or more classes and the zero labels only when an impossible transition sets the number of decimals", "anchors": ["pydtmc/plotting.py:528-996", "pydtmc/plotting.py:550-561", "pydtmc/plotting.py:610-628"]}
{"id": "C110", "title": "Sequence and redistributions plots show the runs and the laws they name", "statement": "For every valid chain, number of steps from two, initial state and type, plot_sequence is accepted and shows a possible run of the chain of the requested length: in the heatmap the entry of a pair of states is the share of its moves among all moves (the entries sum to one), in the histogram the bar of a state is the share of the time spent there (the bars sum to one), in the matrix every column marks exactly the state visited at that time. For a hidden model the two panels show the states and the symbols of one run of the same length. plot_redistributions shows for every state the probability to be there after 0, ..., k steps from the given status, is accepted whenever redistribute accepts the same arguments (its comparison of the first distribution with the status never fails), and marks the start exactly in the projection of a distribution that is uniform up to the tolerance.", "quantifier": "for all valid chains and hidden models, all draws of the random generator, all numbers of steps, initial states, statuses and plot types", "why_tests_cant": "The tests call the functions on a few models with random arguments and only check that no exception is raised; the figures are never inspected, so an entry counted for the wrong pair, a missing last move or a wrong normalisation cannot be seen.", "anchors": ["pydtmc/plotting.py:1096-1269", "pydtmc/plotting.py:1000-1092", "pydtmc/simulations.py:176-192"]}
{"id": "C111", "title": "Chains drawn from a random distribution are in proportion to the draws", "statement": "For every accepted size, name of a distribution and list of states, random_distribution returns a valid chain of that size: the row of a state is in proportion to its drawn values, where undefined and negative values count as zero and infinite ones as finite numbers, and a row without positive values is uniform. Names are accepted exactly if the generator has them and they are among the recognised ones.", "quantifier": "for all sizes, lists of states, names, and all values the distribution may return, including undefined and infinite ones", "why_tests_cant": "The tests draw from a few well-behaved distributions with fixed seeds; draws whose sum leaves the range of doubles have negligible probability there, and no test looks at the rows.", "anchors": ["pydtmc/markov_chain.py:2694-2738", "pydtmc/validation.py:799-833"]}
{"id": "C112", "title": "Comparison plots show every model once under its own name", "statement": "plot_comparison succeeds exactly for at least two models, transition matrices or (if all models are hidden) emission matrices, and names that are omitted or a list of as many strings that are not blank. The grid is as wide as high up to two columns, has room for all models, and no row could be left out. Cell k shows the requested matrix of model k under name k, and the cells after the last model are empty. The default names are pairwise different.", "quantifier": "for all lists of models of both kinds, all kinds of matrices and all names", "why_tests_cant": "The tests call the function for a few lists of models and only check that no exception is raised; they cover a handful of grid sizes and never look at the cells.", "anchors": ["pydtmc/plotting.py:188-233", "pydtmc/utilities.py:165-176", "pydtmc/validation.py:973-989"]}
{"id": "C113", "title": "Eigenvalue plots show all eigenvalues and the spectral gap", "statement": "For every valid chain plot_eigenvalues shows each eigenvalue of the transition matrix once, all inside the unit circle. An inner circle with the second largest modulus as its radius is drawn for ergodic chains (unless the modulus is at most 1e-8), and for no others.", "quantifier": "for all valid chains", "why_tests_cant": "The tests only check that no exception is raised; chains with a second largest modulus near one do not occur among them.", "anchors": ["pydtmc/plotting.py:258-317"]}
{"id": "C114", "title": "File names with an accepted ending are accepted, and validation touches no other file", "statement": "A path whose file name ends in .csv, .json, .xml or .txt, in upper or lower case, is accepted, and the ending decides the format. For reading, the file must exist, be readable and not be empty, and nothing is changed. For writing, the path must be writable, with an existing directory if absolute; an accepted path has been emptied, no other file changed, and a rejected path leaves everything as it was.", "quantifier": "for all paths and all states of the file system", "why_tests_cant": "The tests use temporary files with plain names and the expected endings; names with further dots, leading dots or trailing dots do not occur.", "anchors": ["pydtmc/utilities.py:234-241", "pydtmc/validation.py:279-330"]}
{"id": "C115", "title": "Transition functions receive the arguments that their parameters name", "statement": "fit_function accepts a function exactly if it has the four documented parameters and returns a finite number for the trial arguments, and the fitted chain uses the values of the function where each parameter has the value its name announces, for any order of the parameters. Intervals are accepted exactly if they are pairs of finite numbers with 0 <= a < b.", "quantifier": "for all functions, orders of parameters, rules, state lists and intervals", "why_tests_cant": "All functions in the tests have their parameters in one order, so passing the arguments by position cannot be told from passing them by name.", "anchors": ["pydtmc/validation.py:1031-1059", "pydtmc/validation.py:466-487", "pydtmc/fitting.py:267-281", "pydtmc/markov_chain.py:2254-2302"]}
{"id": "C116", "title": "Simulated runs of a chain have the law of the chain", "statement": "If the draws of the random generator are uniform on [0, 1) and independent, then for every valid chain, number of steps, initial state and final state, and every set of paths, the probability that simulate returns a path of the set is the probability that the chain (stopped at the first later visit of the final state) follows such a path. In particular a given path has the product of its transition probabilities, the state at time t has the law given by the t-th power of the transition matrix, and next returns every state with its transition probability.", "quantifier": "for all valid chains, numbers of steps, initial and final states, and all sets of paths", "why_tests_cant": "A test sees finitely many seeds; it can compare frequencies up to statistical error for a few chains, but it cannot establish the exact law of all paths.", "anchors": ["pydtmc/simulations.py:214-231", "pydtmc/markov_chain.py:1682-1707", "pydtmc/markov_chain.py:1809-1838"]}
{"id": "C117", "title": "Simulated runs of a hidden model have the law of the model", "statement": "If the draws are uniform on [0, 1) and independent, then for every valid hidden model, number of steps, initial state, final state and final symbol, the run that simulate returns has the law of the pairs of states and symbols: the first symbol is emitted by the start state, and every later pair has the transition probability times the emission probability, up to the first pair with the final state or the final symbol. In particular given states and symbols have the product of the transition and the emission probabilities.", "quantifier": "for all valid hidden models, numbers of steps, initial states, final states and symbols, and all sets of runs", "why_tests_cant": "A test sees finitely many seeds; an index that is off by one in the search of the cumulative sums changes probabilities that no assertion on a few runs can notice.", "anchors": ["pydtmc/simulations.py:109-152", "pydtmc/hidden_markov_model.py:448-481"]}
{"id": "C118", "title": "Regular chains converge to pi, irreducible chains converge on average", "statement": "If is_regular holds, then pi is one distribution, and the rows of the powers of the transition matrix and the results of redistribute approach it at one geometric rate, whatever the initial status is. For a chain with one communicating class is_regular holds exactly if the rows of the powers tend to pi. For every chain with one communicating class, periodic or not, the average of the first k rows of powers differs from pi by at most a constant over k.", "quantifier": "for all valid chains, numbers of steps, initial statuses and states", "why_tests_cant": "The statement is about limits: a test sees finitely many powers of finitely many matrices, and cannot tell slow convergence from none.", "anchors": ["pydtmc/markov_chain.py:700-716", "pydtmc/markov_chain.py:868-887", "pydtmc/markov_chain.py:1740-1762", "pydtmc/simulations.py:176-192"]}
{"id": "C119", "title": "State frequencies of simulated runs concentrate at pi", "statement": "If the draws are uniform on [0, 1) and independent, then for every chain with one communicating class the share of each state in a simulated run of s steps differs from its entry of pi by e or more with probability at most C / (e^2 s). The constant C depends neither on the number of steps nor on the initial state.", "quantifier": "for all valid chains with one communicating class, numbers of steps, initial states, states and tolerances e > 0", "why_tests_cant": "A test sees finitely many seeds and run lengths; that two independent computations, the solver of pi and the simulation, agree in the limit is a statement about all of them.", "anchors": ["pydtmc/simulations.py:214-231", "pydtmc/markov_chain.py:868-887", "pydtmc/markov_chain.py:1809-1838"]}
{"id": "C120", "title": "Maximum likelihood fitting recovers the simulated chain", "statement": "If the draws are uniform on [0, 1) and independent, then for every chain with one communicating class fit_sequence accepts the simulated run, as indices or as labels, and each transition probability of the fitted chain differs from the true one by e or more with probability at most C (1 + 1 / e^2) / s for runs of s steps. The constant C depends neither on the number of steps nor on the initial state.", "quantifier": "for all valid chains with one communicating class, numbers of steps, initial states, output formats, pairs of states and tolerances e > 0", "why_tests_cant": "Consistency is a statement about the limit of long runs and about all seeds; a test can only compare one estimate with one matrix up to a guessed tolerance.", "anchors": ["pydtmc/simulations.py:214-231", "pydtmc/markov_chain.py:1809-1838", "pydtmc/fitting.py:289-330", "pydtmc/markov_chain.py:2306-2347"]}
{"id": "C121", "title": "Which raw matrices, vectors, masks and labels are accepted", "statement": "For every argument whatsoever, the constructors of chains and hidden models succeed exactly if the matrix arguments are arrays or lists of lists of numbers, not all of them booleans, that form a matrix meeting the documented requirements, and if the label arguments are omitted or are lists of distinct non-blank strings of the right length; the result has exactly these matrices and labels. The same holds for the matrix arguments of from_matrix and from_matrices, for hyperparameters, for rewards, for the vectors given as status or as argument of a generator, and for the masks of random, where NaN stands for an undefined probability.", "quantifier": "for all Python values that are none, booleans, integers, floats, strings, lists, tuples and numeric arrays", "why_tests_cant": "Tests try a few rejected and a few accepted values; an exact characterisation of the accepted values among all nested lists needs a proof in both directions.", "anchors": ["pydtmc/utilities.py:205-224", "pydtmc/validation.py:249-265", "pydtmc/validation.py:438-451", "pydtmc/validation.py:592-613", "pydtmc/validation.py:646-667", "pydtmc/validation.py:670-694", "pydtmc/validation.py:836-854", "pydtmc/validation.py:922-970", "pydtmc/validation.py:1063-1082", "pydtmc/validation.py:1085-1124", "pydtmc/markov_chain.py:210-231", "pydtmc/markov_chain.py:2651-2692", "pydtmc/hidden_markov_model.py:918-973"]}
{"id": "C122", "title": "Simulated runs are equally likely up to the entropy rate", "statement": "If the draws are uniform on [0, 1) and independent, then for every chain with one communicating class minus the logarithm of the sequence_probability of a simulated run, divided by its number of steps s, differs from entropy_rate by e or more with probability at most C / (e^2 s), where C depends neither on the number of steps nor on the initial state. In equilibrium the entropy of the first k + 1 states is the entropy of pi plus k times entropy_rate.", "quantifier": "for all valid chains whose entropy_rate is returned with the right sign, all numbers of steps, initial states and tolerances", "why_tests_cant": "The statement is about the law of arbitrarily long random runs; a test sees single runs and cannot bound the probability of deviations.", "anchors": ["pydtmc/markov_chain.py:488-510", "pydtmc/markov_chain.py:1788-1806", "pydtmc/simulations.py:195-211"]}
{"id": "C123", "title": "Fitting with prior weights recovers the simulated chain", "statement": "If the draws are uniform on [0, 1) and independent, then for every chain with one communicating class fit_sequence accepts the simulated run, as indices or as labels, for both methods, with or without smoothing and with every accepted hyperparameter, and each transition probability of the fitted chain is off by e or more with probability at most C (1 + 1 / e^2) / s after s steps, where C depends neither on the number of steps nor on the initial state.", "quantifier": "for all valid chains with one communicating class, all methods and parameters, all numbers of steps, initial states and tolerances", "why_tests_cant": "Consistency is a statement about the law of arbitrarily long runs and about every hyperparameter; tests see single runs.", "anchors": ["pydtmc/markov_chain.py:2306-2347", "pydtmc/fitting.py:289-331"]}
{"id": "C124", "title": "Passage quantities describe simulated runs", "statement": "If the draws are uniform on [0, 1) and independent, then the probability that a simulated run visits the targets never exceeds hitting_probabilities and tends to it as the run gets longer, the probability that a run visits the second set before the first tends to the forward committor, the mean number of steps before the targets are visited tends to hitting_times, mean_first_passage_times_to and mean_absorption_times and grows without bound where hitting_times is infinite, the mean number of steps of runs that stop at a final state tends to the entry of mean_first_passage_times_to without targets, the mean return time tends to mean_recurrence_times, and the mean number of visits after the start tends to mean_number_visits.", "quantifier": "for all valid chains (ergodic or absorbing where the method requires it), all target sets, all initial and final states", "why_tests_cant": "The statement is about limits of probabilities and means over all random runs; a test compares with a finite sample and cannot see a bias below its noise.", "anchors": ["pydtmc/markov_chain.py:1138-1172", "pydtmc/markov_chain.py:1326-1379", "pydtmc/markov_chain.py:1514-1616", "pydtmc/markov_chain.py:1809-1838"]}
{"id": "C125", "title": "Seeds make the random methods reproducible", "statement": "A seed is accepted iff it is None or an integer of 32 bits. The result of a call with a seed does not depend on the state of the shared generator nor on any calls made before or after it, and the call leaves the shared generator untouched, so the results of the calls without a seed are the same as if the seeded calls had not been made. simulate and next with a seed return one fixed possible run of the chain or hidden model.", "quantifier": "for all histories of calls, all seeds, all states of the shared generator, all generators that draw only outcomes of positive probability, all valid models", "why_tests_cant": "A test checks a few seeds in a few interleavings; independence of every earlier and later call is a statement about all histories.", "anchors": ["pydtmc/utilities.py:180-189", "pydtmc/markov_chain.py:1682-1707", "pydtmc/markov_chain.py:1809-1838", "pydtmc/hidden_markov_model.py:342-378", "pydtmc/hidden_markov_model.py:448-481", "pydtmc/simulations.py:109-152", "pydtmc/simulations.py:214-231"]}
{"id": "C126", "title": "Validation errors name the rejected argument", "statement": "The messages of the validators begin with a placeholder for the name of the argument. Whichever of the 218 lines of the public functions validates the rejected argument, the placeholder is replaced by the name of the parameter of the public function that was rejected. Messages without a placeholder, among them those about seeds, are passed on unchanged.", "quantifier": "for all validation lines of the library, all indentations and right-hand sides, all message texts", "why_tests_cant": "The name is recovered by parsing the text of the source line; the tests only check that some ValidationError is raised and never look at the message, and a renamed local variable would silently blame another argument.", "anchors": ["pydtmc/utilities.py:192-202", "pydtmc/validation.py:107-1124"]}
{"id": "C127", "title": "Arguments that are models", "statement": "An argument that must be a chain (hidden Markov model, model) is accepted iff it is an instance of MarkovChain (HiddenMarkovModel, one of these two) itself and has the required size; lists of models are accepted iff they have at least two elements that are all accepted; the resolution of a plot is accepted iff it is one of 75, 100, 150, 200, 250, 300, 600.", "quantifier": "for all objects whose class is not disguised as one of the library, all sizes, all lists", "why_tests_cant": "Tests pass a few wrong values; the exact set of accepted classes, including the rejection of every user-defined subclass, needs all classes.", "anchors": ["pydtmc/validation.py:232-245", "pydtmc/validation.py:411-435", "pydtmc/validation.py:616-643", "pydtmc/validation.py:697-735", "pydtmc/utilities.py:257-274", "pydtmc/base_classes.py:21-30"]}
{"id": "C128", "title": "Descriptions", "statement": "The text of str(mc) gives the number of states, the rank, the numbers of communicating, recurrent and transient classes, and the right answers about ergodicity, aperiodicity (with the period), irreducibility, absorption, monotonicity, regularity, reversibility and symmetry; the text of str(hmm) gives the numbers of states and symbols and the right answers about ergodicity and regularity.", "quantifier": "for all valid chains and hidden Markov models", "why_tests_cant": "The tests never compare the text with the chain; twelve independent computations meet in it and must agree for every chain.", "anchors": ["pydtmc/markov_chain.py:249-270", "pydtmc/hidden_markov_model.py:190-202"]}
{"id": "C129", "title": "Speed of convergence", "statement": "The second largest eigenvalue modulus s of an ergodic chain is the rate of its convergence: the t-th root of the worst distance to the stationary distribution after t steps tends to s, the distance is at least s^t and at most a multiple of r^t for every r>s; mixing_rate is the time in which the distance shrinks by the factor e; for a chain in detailed balance the distance from state i is at most s^t/sqrt(pi_i) and mixing_time is at most relaxation_rate*log(1/(cutoff*sqrt(min pi))).", "quantifier": "every valid ergodic chain, every number of steps, every initial distribution", "why_tests_cant": "the claim is about the limit of infinitely many steps and about all initial states, and it relates four properties that are computed independently of each other", "anchors": ["pydtmc/computations.py:slem", "pydtmc/markov_chain.py:MarkovChain.mixing_rate", "pydtmc/markov_chain.py:MarkovChain.relaxation_rate", "pydtmc/measures.py:mc_mixing_time"]}
{"id": "C130", "title": "Estimation from simulated hidden runs", "statement": "If the hidden states form one communicating class, then estimate applied to the states and symbols that simulate returns recovers the model: every transition and every emission probability of the estimate is off by e or more with probability at most C(1+1/e^2)/s after s steps, where C depends neither on the number of steps nor on the initial state.", "quantifier": "every valid hidden model with one communicating class, every number of steps, initial state and tolerance", "why_tests_cant": "the claim is about the law of the result over all random streams and about the limit of long runs; a test sees a few seeds and cannot tell a biased estimator from an unlucky run", "anchors": ["pydtmc/hidden_markov_model.py:HiddenMarkovModel.estimate", "pydtmc/hidden_markov_model.py:HiddenMarkovModel.simulate", "pydtmc/generators.py:hmm_estimate", "pydtmc/simulations.py:hmm_simulate"]}
{"id": "C131", "title": "Decoding of simulated hidden runs", "statement": "For the symbols that simulate returns after the first one, decode with the law of the start state as initial status returns the logarithm of their probability, and its posterior probabilities are the conditional probabilities of the simulated states given these symbols; None is returned only for symbols of probability below 1e-300; the state that predict with the method map names is, for every symbol, the most likely one.", "quantifier": "every valid hidden model, every initial status, every sequence of symbols", "why_tests_cant": "it relates the law of a random method over all random streams to the result of a recursion that never looks at the simulation; checking one sequence by sampling needs exponentially many runs", "anchors": ["pydtmc/hidden_markov_model.py:HiddenMarkovModel.decode", "pydtmc/hidden_markov_model.py:HiddenMarkovModel.predict", "pydtmc/hidden_markov_model.py:HiddenMarkovModel.simulate"]}
{"id": "C132", "title": "Long run of chains with several classes", "statement": "The share of the time that a chain spends in a state, from any start, tends to the sum over the classes of recurrent_classes of the probability to hit the class, as given by hitting_probabilities with the labels of the class, times the entry of the distribution that pi lists for the class. After k steps the error is at most B/k, where B depends on the chain alone. The same holds for the mean share of the time of the runs of simulate.", "quantifier": "every valid chain, irreducible or not, periodic or not, every start and every number of steps", "why_tests_cant": "it combines three methods that never call each other and describes a limit over all start states; a test checks the results of each method on a few chains", "anchors": ["pydtmc/markov_chain.py:MarkovChain.pi", "pydtmc/markov_chain.py:MarkovChain.recurrent_classes", "pydtmc/markov_chain.py:MarkovChain.hitting_probabilities", "pydtmc/markov_chain.py:MarkovChain.simulate"]}
{"id": "C133", "title": "Limit of the law of chains with several classes", "statement": "The law of the state converges from every start exactly when all entries of periods are one. The limit is then the mixture of the distributions of pi, weighted with the probabilities that hitting_probabilities gives for the labels of their classes; the error falls geometrically. The same holds for the last state of the runs of simulate.", "quantifier": "every valid chain, irreducible or not, every start and every number of steps", "why_tests_cant": "both directions are about limits for all chains and all starts, and the limit combines four methods that do not call each other", "anchors": ["pydtmc/markov_chain.py:MarkovChain.periods", "pydtmc/markov_chain.py:MarkovChain.pi", "pydtmc/markov_chain.py:MarkovChain.hitting_probabilities", "pydtmc/markov_chain.py:MarkovChain.recurrent_classes", "pydtmc/markov_chain.py:MarkovChain.simulate", "pydtmc/computations.py:calculate_periods"]}
{"id": "C134", "title": "The order of the states does not matter", "statement": "A chain and the same chain with its states listed in another order (for instance its canonical form) have the same measures: the same flags, classes, absorbing, recurrent and transient states, stationary distributions, hitting, absorption, passage, recurrence and committor quantities, visits, entropy rate, Kemeny constant, predictions and simulated laws, each read by state label.", "quantifier": "every valid chain, every permutation of its states, every target given by label", "why_tests_cant": "the classes, the solvers and the position arithmetic all run over other index lists; a test fixes one chain in one order", "anchors": ["pydtmc/markov_chain.py:MarkovChain.to_canonical_form", "pydtmc/markov_chain.py:MarkovChain.pi", "pydtmc/markov_chain.py:MarkovChain.period", "pydtmc/markov_chain.py:MarkovChain.hitting_probabilities", "pydtmc/markov_chain.py:MarkovChain.mean_first_passage_times_to", "pydtmc/markov_chain.py:MarkovChain.absorption_probabilities", "pydtmc/markov_chain.py:MarkovChain.simulate", "pydtmc/computations.py:calculate_period"]}
{"id": "C135", "title": "Identity chains", "statement": "identity accepts exactly integer sizes from two on with matching labels and returns a valid chain that never moves: every state is absorbing and a recurrent class of its own, the chain is absorbing and not irreducible, all periods are one, pi lists the unit vectors in the order of the states, and every simulated run stays in its first state.", "quantifier": "all sizes, all label arguments, all soundly drawn runs", "why_tests_cant": "all sizes and all methods at once; the order of pi depends on the sorting of the classes", "anchors": ["pydtmc/markov_chain.py:MarkovChain.identity", "pydtmc/markov_chain.py:MarkovChain.pi", "pydtmc/markov_chain.py:MarkovChain.simulate"]}
{"id": "C136", "title": "Lumping keeps the measures of the groups", "statement": "For the chain that lump returns: pi lists the sums over the groups of the distributions of the given chain; hitting probabilities and times, passage times, forward committors and expected rewards of unions of groups are those of the given chain; the groups visited by simulated runs have the law of its simulated runs; irreducible, ergodic, regular and reversible chains give such chains; entropy rate and second largest eigenvalue modulus do not grow, and the period divides that of the chain.", "quantifier": "every valid chain, every partition that lump accepts and whose joined labels are distinct, all targets that are unions of groups", "why_tests_cant": "each measure is computed by other linear systems of other sizes for the two chains; a test compares one pair", "anchors": ["pydtmc/markov_chain.py:MarkovChain.lump", "pydtmc/markov_chain.py:MarkovChain.pi", "pydtmc/markov_chain.py:MarkovChain.hitting_probabilities", "pydtmc/markov_chain.py:MarkovChain.mean_first_passage_times_to", "pydtmc/markov_chain.py:MarkovChain.committor_probabilities", "pydtmc/markov_chain.py:MarkovChain.expected_rewards", "pydtmc/markov_chain.py:MarkovChain.simulate"]}
{"id": "C137", "title": "Values over a fixed number of steps describe simulated runs", "statement": "expected_rewards, expected_transitions, first_passage_reward, time_correlations and time_relaxations return the means, and first_passage_probabilities, sequence_probability, transition_probability and redistribute the probabilities, of the corresponding quantities of the runs that simulate returns.", "quantifier": "every valid chain, all numbers of steps, initial states and distributions, first passage states, rewards and sequences that the methods accept, runs of any sufficient length over uniform and independent draws", "why_tests_cant": "a test can only compare sample means of some runs with the results, up to sampling error", "anchors": ["pydtmc/markov_chain.py:MarkovChain.simulate", "pydtmc/markov_chain.py:MarkovChain.expected_rewards", "pydtmc/markov_chain.py:MarkovChain.expected_transitions", "pydtmc/markov_chain.py:MarkovChain.first_passage_probabilities", "pydtmc/markov_chain.py:MarkovChain.first_passage_reward", "pydtmc/markov_chain.py:MarkovChain.sequence_probability", "pydtmc/markov_chain.py:MarkovChain.redistribute", "pydtmc/markov_chain.py:MarkovChain.time_correlations", "pydtmc/markov_chain.py:MarkovChain.time_relaxations", "pydtmc/markov_chain.py:MarkovChain.transition_probability"]}
{"id": "C138", "title": "Lazy chains keep or rescale the measures", "statement": "The chain that to_lazy_chain returns for weights below one has the classes, hitting probabilities and forward committors of the given chain, and is ergodic if that chain is irreducible and some weight is positive. With one weight w for all states it also has the same pi and is reversible when the given chain is; hitting times, passage times, absorption times, the fundamental matrix and Kemeny's constant are those of the given chain divided by 1 - w, and its eigenvalues are (1 - w) z + w.", "quantifier": "every valid chain, all weights below one that to_lazy_chain accepts, all targets", "why_tests_cant": "each measure comes from another linear system for the two chains; a test compares one pair of chains and one weight", "anchors": ["pydtmc/markov_chain.py:MarkovChain.to_lazy_chain", "pydtmc/markov_chain.py:MarkovChain.pi", "pydtmc/markov_chain.py:MarkovChain.hitting_probabilities", "pydtmc/markov_chain.py:MarkovChain.hitting_times", "pydtmc/markov_chain.py:MarkovChain.mean_first_passage_times_to", "pydtmc/markov_chain.py:MarkovChain.mean_absorption_times", "pydtmc/markov_chain.py:MarkovChain.fundamental_matrix", "pydtmc/markov_chain.py:MarkovChain.kemeny_constant", "pydtmc/markov_chain.py:MarkovChain.committor_probabilities"]}
{"id": "C139", "title": "Chains of higher order keep the measures they should keep", "statement": "The chain that to_nth_order(k) returns describes every k-th state of the given chain: its simulated runs are distributed like every k-th state of simulated runs, redistribute gives every k-th distribution, recurrent and transient states are the same and it is ergodic iff the given chain is. An irreducible chain of period g splits into gcd(g, k) classes of period g / gcd(g, k), whose stationary distributions are the parts of pi scaled by the number of classes. Probabilities to reach sets that are never left and absorption probabilities are the same, eigenvalues are raised to the power k and the mixing rate is divided by k.", "quantifier": "every valid chain, every order k that to_nth_order accepts, all closed sets, all numbers of steps", "why_tests_cant": "the claims relate results of two different chains for every order and every period; a test compares one pair of chains", "anchors": ["pydtmc/markov_chain.py:MarkovChain.to_nth_order", "pydtmc/markov_chain.py:MarkovChain.simulate", "pydtmc/markov_chain.py:MarkovChain.redistribute", "pydtmc/markov_chain.py:MarkovChain.pi", "pydtmc/markov_chain.py:MarkovChain.period", "pydtmc/markov_chain.py:MarkovChain.communicating_classes", "pydtmc/markov_chain.py:MarkovChain.hitting_probabilities", "pydtmc/markov_chain.py:MarkovChain.absorption_probabilities", "pydtmc/markov_chain.py:MarkovChain.mixing_rate"]}
{"id": "C140", "title": "Calls return a result exactly for the arguments in the documented ranges", "statement": "Each of the generators identity, gamblers_ruin, urn_model, population_genetics_model, birth_death, dirichlet_process, approximation and random_distribution, each of to_bounded_chain, to_lazy_chain, merge_with, to_nth_order and redistribute, and simulate, next, predict, sequence_probability, expected_rewards, expected_transitions, first_passage_probabilities, first_passage_reward, hitting_probabilities, hitting_times, mean_first_passage_times_to, mean_first_passage_times_between, committor_probabilities and mixing_time returns a result iff its arguments have the documented types and are in the documented ranges. All other calls raise an error, and no chain makes an accepted call fail later.", "quantifier": "every valid chain and all values of all arguments, of any type", "why_tests_cant": "a test tries a few values of each argument; the claim is about all values and all combinations, and that no accepted call fails for some chain", "anchors": ["pydtmc/validation.py:validate_integer", "pydtmc/validation.py:validate_float", "pydtmc/validation.py:validate_vector", "pydtmc/validation.py:validate_status", "pydtmc/validation.py:validate_boundary_condition", "pydtmc/markov_chain.py:MarkovChain.population_genetics_model", "pydtmc/markov_chain.py:MarkovChain.birth_death", "pydtmc/markov_chain.py:MarkovChain.approximation", "pydtmc/markov_chain.py:MarkovChain.first_passage_reward", "pydtmc/markov_chain.py:MarkovChain.committor_probabilities", "pydtmc/markov_chain.py:MarkovChain.mixing_time"]}
{"id": "C141", "title": "Methods that describe the same quantity agree", "statement": "For every chain: the mean time to a target drawn from the stationary distribution does not depend on the start; mean first passage times to one state are its column of the table of all of them; a mean recurrence time is one step plus the passage time back; hitting times equal mean first passage times in an ergodic chain and hitting probabilities are one in an irreducible one; absorption probabilities and times equal the hitting probabilities and times of the absorbing states; mean numbers of visits are the fundamental matrix less the identity on the transient states; first passage probabilities add up to the hitting probability; forward committor probabilities of two sets and of the exchanged sets add up to one, and for a reversible chain the backward ones are the forward ones of the exchanged sets; expected rewards and transitions are sums over the laws returned by redistribute.", "quantifier": "every valid chain (ergodic or absorbing where stated) and every choice of targets, sets, rewards and numbers of steps", "why_tests_cant": "the two sides are computed by different algorithms and a test compares them on a few matrices only; the sums over all steps cannot be computed at all", "anchors": ["pydtmc/measures.py:mc_mean_first_passage_times_to", "pydtmc/measures.py:mc_hitting_times", "pydtmc/measures.py:mc_hitting_probabilities", "pydtmc/measures.py:mc_absorption_probabilities", "pydtmc/measures.py:mc_mean_absorption_times", "pydtmc/measures.py:mc_mean_number_visits", "pydtmc/measures.py:mc_committor_probabilities", "pydtmc/measures.py:mc_first_passage_probabilities", "pydtmc/measures.py:mc_expected_rewards", "pydtmc/measures.py:mc_expected_transitions"]}
{"id": "C142", "title": "Generated models behave as the models they are named after", "statement": "The measures computed for generated chains have their classical values. Gambler's ruin: the chance of reaching the fortune and the mean number of games are the geometric-series formulas. Moran: without mutation the chance of fixation is (1-γ^i)/(1-γ^n) with γ=1/(1-s), and i/n without selection. Wright-Fisher: without mutation and selection the mean is kept and the chance of fixation is i/n. Urns: pi is the binomial law (Ehrenfest) and the squared binomial law (Bernoulli-Laplace), the mean distance to the even split shrinks by 1-1/k per step, Ehrenfest has period two and Bernoulli-Laplace is regular. Birth-death: pi is the normalised product of the ratios of births and deaths. Rouwenhorst: pi is the binomial law and the mean after t steps is rho^t times the current value.", "quantifier": "every size and every accepted parameter (selection below one and no mutation for the genetic models, births and deaths above the tolerance for birth-death chains)", "why_tests_cant": "closed forms for all sizes and parameters, joining a generator with a separately written solver; the tests compare a few small matrices with stored numbers", "anchors": ["pydtmc/generators.py:mc_gamblers_ruin", "pydtmc/generators.py:mc_population_genetics_model", "pydtmc/generators.py:mc_urn_model", "pydtmc/generators.py:mc_birth_death", "pydtmc/generators.py:mc_approximation", "pydtmc/measures.py:mc_hitting_probabilities", "pydtmc/measures.py:mc_absorption_probabilities", "pydtmc/measures.py:mc_mean_absorption_times"]}
{"id": "C143", "title": "Subchains keep the measures of their states", "statement": "A chain returned by to_subchain has, on its own states, the same recurrent, transient and absorbing states, reachability, periods and powers as the original, its pi lists the stationary distributions of the original that live on its states, and hitting probabilities, hitting times, mean numbers of visits, absorption times and probabilities, expected rewards, first passage probabilities, the law of simulated runs and predictions are the same for the states it contains.", "quantifier": "every valid chain, every accepted set of requested states, every target, reward vector and horizon", "why_tests_cant": "relates two runs of every measure on arbitrary chains and arbitrary closed sets of states", "anchors": ["pydtmc/markov_chain.py:MarkovChain.to_subchain", "pydtmc/generators.py:mc_sub", "pydtmc/measures.py:mc_hitting_probabilities", "pydtmc/measures.py:mc_hitting_times", "pydtmc/measures.py:mc_mean_number_visits", "pydtmc/measures.py:mc_mean_absorption_times", "pydtmc/measures.py:mc_absorption_probabilities", "pydtmc/measures.py:mc_first_passage_probabilities"]}
{"id": "C144", "title": "What merging keeps of two chains", "statement": "A chain returned by merge_with is irreducible, ergodic or regular as soon as one of the two chains is; a state is absorbing in it iff it is absorbing in both; if the two share a stationary distribution and one of them is irreducible, pi of the merge is exactly this distribution, and the merge is reported reversible when both are in detailed balance with it; monotone chains merge to a monotone chain, symmetric ones to a symmetric one and doubly stochastic ones to a doubly stochastic one; the expected rewards of one step are mixed with the same weights.", "quantifier": "every pair of valid chains of equal size and every accepted gamma", "why_tests_cant": "relates the results on three chains for all pairs of chains", "anchors": ["pydtmc/markov_chain.py:MarkovChain.merge_with", "pydtmc/markov_chain.py:MarkovChain.is_irreducible", "pydtmc/markov_chain.py:MarkovChain.is_ergodic", "pydtmc/markov_chain.py:MarkovChain.is_regular", "pydtmc/markov_chain.py:MarkovChain.pi", "pydtmc/markov_chain.py:MarkovChain.is_reversible", "pydtmc/markov_chain.py:MarkovChain.is_stochastically_monotone", "pydtmc/measures.py:mc_expected_rewards"]}
{"id": "C145", "title": "Decoding agrees with the chain behind a hidden model", "statement": "The likelihoods that decode returns for all symbol sequences of one length sum to the sum of the initial status, up to less than 1e-300 per sequence for the sequences it refuses. Adding symbols never raises the likelihood and never makes an undecodable sequence decodable; a symbol that no state emits cannot be decoded. If every state emits its own symbol, decode finds the states with certainty, the map prediction names them, and the likelihood from a known start is sequence_probability of the chain. If all states emit alike, the likelihood is the product of the symbol probabilities and the posteriors are the laws of redistribute. The Viterbi value is never above the log-likelihood. Renaming symbols and renaming or lumping states keeps the likelihoods and adds up the posteriors.", "quantifier": "every valid hidden model, every accepted status and every accepted sequence of symbols", "why_tests_cant": "sums over all sequences of every length and relations between separately written algorithms of two classes", "anchors": ["pydtmc/measures.py:hmm_decode", "pydtmc/hidden_markov_model.py:HiddenMarkovModel.decode", "pydtmc/hidden_markov_model.py:HiddenMarkovModel.predict", "pydtmc/simulations.py:hmm_predict", "pydtmc/markov_chain.py:MarkovChain.sequence_probability", "pydtmc/markov_chain.py:MarkovChain.redistribute"]}
{"id": "C146", "title": "Which calls of the hidden models and of the fits return a result", "statement": "decode, predict, simulate, next, restrict, transition_probability, emission_probability, estimate and from_matrices of hidden models, and transition_probability and fit_sequence of chains, return a result exactly for the arguments whose values meet the stated conditions: sequences of two or more symbols given uniformly by name or by number, statuses that are omitted, a state or a distribution, two or more steps, a restriction that keeps one item or two or more but not all of them, disjoint names of states and symbols (default names included), sequences of the same length, and a fitting parameter that suits the fitting type. Every other call is rejected, and no accepted call fails later.", "quantifier": "every valid hidden model or chain and every value of every argument", "why_tests_cant": "an equivalence over all Python values of all arguments together", "anchors": ["pydtmc/hidden_markov_model.py:HiddenMarkovModel.decode", "pydtmc/hidden_markov_model.py:HiddenMarkovModel.predict", "pydtmc/hidden_markov_model.py:HiddenMarkovModel.simulate", "pydtmc/hidden_markov_model.py:HiddenMarkovModel.next", "pydtmc/hidden_markov_model.py:HiddenMarkovModel.restrict", "pydtmc/hidden_markov_model.py:HiddenMarkovModel.estimate", "pydtmc/hidden_markov_model.py:HiddenMarkovModel.from_matrices", "pydtmc/hidden_markov_model.py:HiddenMarkovModel.emission_probability", "pydtmc/hidden_markov_model.py:HiddenMarkovModel.transition_probability", "pydtmc/markov_chain.py:MarkovChain.transition_probability", "pydtmc/markov_chain.py:MarkovChain.fit_sequence"]}
{"id": "C147", "title": "Floating point error of the stationary distributions", "statement": "If every addition, multiplication and division has a relative error of at most u (and sums and dot products one such error per term, in whatever order they are added), pi returns the same number of vectors with the same positive entries as with exact arithmetic, and every entry, however small, has a relative error of at most 6 n^3 u as long as 3 n^3 u is at most 1/2, whatever the chain is (with doubles and at most 1000 states: six digits). Changing the probabilities of the moves between different states by factors of at most t changes the stationary probabilities by factors of at most t^(2n); rows whose sums are one only up to the factor t, which the constructor accepts, give the stationary distribution of the normalised rows up to t^(2n) and the same rounding factor.", "quantifier": "every valid chain, every rounding arithmetic with the stated error bound, every perturbation", "why_tests_cant": "a bound on the worst rounding error over all chains; tests compare a few chains with a tolerance", "anchors": ["pydtmc/markov_chain.py:MarkovChain.pi", "pydtmc/computations.py:gth_solve"]}
{"id": "C148", "title": "Floating point error of redistributions, rewards, first passages and powers", "statement": "If every arithmetic operation has a relative error of at most u, a call of redistribute that returns a result with exact arithmetic also does so with rounding, and each probability after k steps is off by at most 2 + (2k+1)(n+1) roundings, although every step divides by a rounded sum; expected rewards over k steps (nonnegative rewards) are off by at most k(n+1), first passage probabilities by (t-1)(n+1) (plus the number of target states), the entries of a power of order m by (m-1)n roundings in whatever order the factors are multiplied, rows divided by their sums by n+1. N roundings are a relative error of at most 2Nu while Nu is at most 1/2, whatever the chain is and however small the entry is.", "quantifier": "every valid chain, every number of steps, every arithmetic with the stated error bound", "why_tests_cant": "a bound on the worst error over all chains, horizons and orders of summation", "anchors": ["pydtmc/simulations.py:mc_redistribute", "pydtmc/measures.py:mc_expected_rewards", "pydtmc/measures.py:mc_first_passage_probabilities", "pydtmc/markov_chain.py:MarkovChain.redistribute", "pydtmc/markov_chain.py:MarkovChain.to_nth_order"]}
{"id": "C149", "title": "Floating point error of decoding", "statement": "If every arithmetic operation has a relative error of at most u and the decoding of T symbols returns a result, then the sequence has positive probability, the product of the scaling factors is this probability up to T(n+3)+n+1 roundings, the forward probabilities are the filtered ones up to 2t(n+3)+n+1 roundings, and every posterior probability is the exact one up to T(2n+7)+n+2 roundings: the errors grow linearly with the length of the sequence. The log-probability has an absolute error of at most (T(n+3)+n+1) log(1/(1-u)). A result is returned whenever each symbol has a conditional probability above 1e-300 times the factor of the roundings.", "quantifier": "every hidden model, every sequence of symbols and every arithmetic with the stated error bound", "why_tests_cant": "a bound on the worst error over all models and sequences of any length", "anchors": ["pydtmc/measures.py:hmm_decode", "pydtmc/hidden_markov_model.py:HiddenMarkovModel.decode"]}
{"id": "C150", "title": "Matrices of chains created by the library pass the checks of the constructor in floating point", "statement": "The transition matrix of a chain returned by the library, computed with doubles, has entries between 0 and 1 and computed row sums close to 1, so that the constructor accepts it again.", "quantifier": "every chain returned by the library, with rounding", "why_tests_cant": "rounding errors that push an entry above one depend on the individual entries", "anchors": ["pydtmc/markov_chain.py:MarkovChain.to_nth_order", "pydtmc/validation.py:validate_transition_matrix"]}
{"id": "C151", "title": "Regularity in double arithmetic", "statement": "The matrix power of is_regular, computed with double precision numbers, has only positive entries exactly if the chain is regular.", "quantifier": "for all valid chains of doubles and all orders of summation", "why_tests_cant": "The tests use chains with a few states and probabilities of a moderate size. Whether a power of order n^n vanishes depends on the smallest exponent of doubles and on row sums that differ from one by the tolerance of the validation.", "anchors": ["pydtmc/markov_chain.py:699-716", "pydtmc/validation.py:1063-1082"]}
{"id": "C152", "title": "Stationary distributions in double arithmetic are returned", "statement": "The elimination of gth_solve, computed with double precision numbers, reaches the last state, so that pi returns a vector.", "quantifier": "for all irreducible chains of doubles", "why_tests_cant": "The branch that ends the elimination early is excluded from the coverage of the tests; it is never taken in exact arithmetic, and with doubles only for products below 2^-1075.", "anchors": ["pydtmc/computations.py:271-295", "pydtmc/markov_chain.py:866-887"]}
{"id": "C153", "title": "Every accepted chain can be simulated", "statement": "If the constructor of a chain or of a hidden model accepts the matrices, then simulate and next return a sequence for all accepted arguments.", "quantifier": "for all accepted matrices, all accepted arguments and all random numbers", "why_tests_cant": "The tests simulate chains whose rows sum to one up to rounding. The constructor accepts deviations of 1e-5, the generator of numpy only 2^-26, and matrices between the two limits are not among the test cases.", "anchors": ["pydtmc/simulations.py:114-117", "pydtmc/simulations.py:222-225", "pydtmc/validation.py:1063-1082"]}
{"id": "C154", "title": "Quadrature rules integrate polynomials of their degree exactly", "statement": "The nodes and weights used by fit_function integrate every polynomial up to the degree of the rule exactly over the given interval: degree 1 for the trapezoid and the Newton-Cotes (midpoint) rule, degree 3 for Simpson's rule, degree n-1 for Gauss-Chebyshev, degree 2n-1 for Gauss-Legendre, and constants for the Niederreiter rule.", "quantifier": "every interval, every number of nodes, every polynomial of the degree", "why_tests_cant": "polynomials, intervals and sizes are unbounded, and a wrong weight still gives a stochastic matrix after the normalization", "anchors": ["pydtmc/fitting.py:mc_fit_function"]}
{"id": "C155", "title": "Rouwenhorst chains over several steps", "statement": "For every size and autocorrelation accepted by the Rouwenhorst case of `approximation`, `to_nth_order(t)` of the returned chain is the chain that `approximation` returns for the autocorrelation `rho ** t` with the same size and labels; the grid value after t steps has the variance (1 - rho^(2t)) / (n - 1) from every starting state, as the autoregressive process has; the chain is in detailed balance with the binomial law, and `is_reversible` is true whenever the autocorrelation is strictly between -1 and 1.", "quantifier": "every size, every autocorrelation in [-1, 1], every number of steps, every starting state, every labelling", "why_tests_cant": "The powers of a recursively built matrix of unbounded size and a continuous parameter; a test compares single matrices up to a tolerance.", "anchors": ["pydtmc/generators.py:395-439", "pydtmc/markov_chain.py:2038-2061", "pydtmc/markov_chain.py:2118-2172"]}
{"id": "C156", "title": "Fitting a hidden model by its predicted paths", "statement": "Every iteration of `fit` of the types `map`, `mle` and `viterbi` replaces the matrices by those that give the predicted hidden paths together with all observed sequences of symbols the largest probability, so that a returned model is the best one for the paths it predicts; a guess that explains the symbols is not rejected.", "quantifier": "every guess, every list of observed sequences, every initial status", "why_tests_cant": "The optimum is over all stochastic matrices and the data are arbitrary; a test with one sequence does not show how sequences of different lengths are weighed.", "anchors": ["pydtmc/fitting.py:103-113", "pydtmc/fitting.py:124-161", "pydtmc/generators.py:63-91", "pydtmc/simulations.py:59-98"]}
{"id": "C157", "title": "The stationarity test detects blocks that behave differently", "statement": "The statistic of `assess_stationarity` compares the numbers of the transitions in the blocks of the sequence, so that it grows with the length of a sequence whose blocks have different transition frequencies, and a sufficiently long sequence of this kind is rejected; it is zero only if the frequencies agree.", "quantifier": "every sequence of every length, every number of blocks from two on, every significance", "why_tests_cant": "A test runs a few sequences; that no sequence of any length can be rejected with a given number of blocks and states is a statement about all of them.", "anchors": ["pydtmc/assessments.py:334-360", "pydtmc/computations.py:126-155"]}
{"id": "C158", "title": "The homogeneity test compares transition probabilities", "statement": "The statistic of `assess_homogeneity` is the likelihood ratio statistic for the hypothesis that all sequences have the same transition probabilities, whose degrees of freedom the function uses; sequences of one chain are not rejected for visiting the states in different proportions.", "quantifier": "every list of overlapping sequences over every list of states", "why_tests_cant": "The identity of two statistics for all tables of counts cannot be established by computing them for some.", "anchors": ["pydtmc/assessments.py:154-190"]}
{"id": "C159", "title": "The test of the Markov property", "statement": "The statistic of `assess_markov_property` is Pearson's statistic over all triples that can occur, its degrees of freedom are those of the hypothesis that the order is one against the order two, and a sequence that a chain explains perfectly is not rejected.", "quantifier": "every sequence over every list of states", "why_tests_cant": "The degrees of freedom and the sum are compared with their definitions for all sequences; tests compare them with numbers that the same program produced.", "anchors": ["pydtmc/assessments.py:205-222", "pydtmc/assessments.py:251-281"]}
{"id": "C160", "title": "The Kemeny constant is a sum over eigenvalues", "statement": "`kemeny_constant` of an absorbing chain with transient states is the sum of `1 / (1 - x)` over the eigenvalues `x` of the transition matrix other than one, counted with multiplicity, and there are as many of these eigenvalues as transient states.", "quantifier": "every absorbing chain with a transient state", "why_tests_cant": "The program never computes these eigenvalues for this purpose. A test compares a number for one chain; the identity relates two unrelated computations for every absorbing chain, also if the matrix is not diagonalisable.", "anchors": ["pydtmc/markov_chain.py:772-789", "pydtmc/markov_chain.py:647-664"]}
{"id": "C161", "title": "Lumping in double arithmetic", "statement": "In floating point arithmetic `lump` returns a chain exactly if the chain is lumpable with respect to the groups, and `lumping_partitions` lists such partitions; the probabilities of the result agree with the probabilities of moving from one group to another up to rounding.", "quantifier": "every chain whose probabilities are doubles, every partition, every order of summation", "why_tests_cant": "The comparison with np.array_equal succeeds or fails depending on the last bit of sums of products with 1/3, 1/5, ...; tests use a few chains, usually with groups of one or two states, for which the reciprocals are exact.", "anchors": ["pydtmc/generators.py:857-884", "pydtmc/computations.py:244-268", "pydtmc/markov_chain.py:1484-1511"]}
{"id": "C162", "title": "Monotonicity in double arithmetic", "statement": "In floating point arithmetic `is_stochastically_monotone` is true exactly for the monotone chains.", "quantifier": "every chain whose probabilities are doubles", "why_tests_cant": "Tail sums that are equal may round differently, depending on the order of the terms; the tests use chains whose tail sums differ clearly.", "anchors": ["pydtmc/markov_chain.py:738-759"]}
{"id": "C163", "title": "Mean time to a random target", "statement": "In an ergodic chain the mean first passage times that mean_first_passage_times_to() returns, weighted with the stationary distribution of the target, sum to the same number for every starting state: the sum of 1 / (1 - x) over the eigenvalues x of the transition matrix other than one, of which there are n - 1 counted with multiplicity. It is at least (n - 1) / 2.", "quantifier": "every ergodic chain, every starting state", "why_tests_cant": "The identity links an inverse matrix, the stationary distribution and the complex spectrum, for all chains and without tolerance.", "anchors": ["pydtmc/measures.py:348-378"]}
{"id": "C164", "title": "A crash while saving a hidden model is never read back as another model", "statement": "If writing the text file of a hidden Markov model stops at any point, HiddenMarkovModel.from_file on the truncated file either raises or returns the model that was being written.", "quantifier": "every valid model with labels without white space and every crash point", "why_tests_cant": "Every prefix of every file has to be considered; from_file fills missing entries with zeros, so that whether a truncation is noticed depends on the digits of the probabilities.", "anchors": ["pydtmc/files_io.py:233-270", "pydtmc/files_io.py:410-423", "pydtmc/hidden_markov_model.py:483-500", "pydtmc/hidden_markov_model.py:770-798"]}
{"id": "C165", "title": "Simulation in double arithmetic", "statement": "In double arithmetic, with draws that are multiples of 2^-53, simulate only uses transitions and emissions of positive probability, and selects each of them with its probability up to rounding; every transition of positive probability can occur.", "quantifier": "all rows of nonnegative doubles whose sum is close to one, all draws, all accepted calls", "why_tests_cant": "The cumulative sums are rounded at every addition; a test sees neither the 2^53 draws nor the rows for which a rounded sum would give an impossible state a positive share.", "anchors": ["pydtmc/simulations.py:109-152", "pydtmc/simulations.py:214-231", "pydtmc/hidden_markov_model.py:448-481", "pydtmc/markov_chain.py:1809-1838"]}
{"id": "C166", "title": "Predicted paths are possible", "statement": "The path of hidden states that predict returns for a sequence of symbols is possible: it starts with a transition from a possible initial state, all its transitions have positive probability and every state emits its symbol with positive probability.", "quantifier": "all valid hidden models, all sequences of symbols, all initial statuses, all prediction types", "why_tests_cant": "Tests compare predictions with stored ones; that a path is impossible is only visible if its transitions are looked up, and most models have no transitions of probability zero.", "anchors": ["pydtmc/simulations.py:45-105", "pydtmc/hidden_markov_model.py:380-413"]}
{"id": "C167", "title": "The mixing time in floating point is the exact one unless a distance is almost equal to the cutoff", "statement": "If every arithmetic operation has a relative error of at most u, mixing_time for an ergodic chain with n states returns k jumps, where k is from 1 to 99, the exact distance after k steps is at most the cutoff plus (6(1 + k n) + 9 n^3 + 21 n) u, and the exact distance after each smaller number j of steps is above the cutoff minus the same expression for j; None is returned only if the latter holds for all j up to 99. Hence the result equals the one of exact arithmetic unless the distance after one of the first 99 steps is this close to the cutoff.", "quantifier": "all ergodic chains, all accepted initial distributions, jumps and cutoff types, all arithmetics with relative errors of at most u where (1 + 99 n + 3 n^3) u is at most one half, and all orders of summation", "why_tests_cant": "Tests compare the result for a few chains with stored numbers; whether rounding can change the result depends on how close the distances of all possible chains come to the cutoff.", "anchors": ["pydtmc/measures.py:469-493", "pydtmc/markov_chain.py:1649-1679"]}
{"id": "C168", "title": "The probability of a sequence in floating point", "statement": "If sums, logarithms and exponentials have a relative error of at most u apart from underflow, sequence_probability returns zero for impossible sequences, and for a sequence of m states of probability p the relative error of the result is at most 4 m u |log p| + 2 u; in particular the result is zero only for impossible sequences.", "quantifier": "all chains, all accepted sequences, all functions fl, ln, ex that satisfy the error bounds", "why_tests_cant": "The error grows with the length and the rarity of the sequence; tests use a few short sequences, while underflow needs sequences of probability below the range of doubles.", "anchors": ["pydtmc/simulations.py:195-211", "pydtmc/markov_chain.py:1788-1806"]}
{"id": "C169", "title": "Stationary distributions in double arithmetic are accurate", "statement": "In double arithmetic with gradual underflow pi returns, for every accepted matrix whose positive probabilities are at least 2^-d and that has at most 500/(d+2) states, one vector per recurrent class: it is positive exactly on the class, and every entry has a relative error of at most 6 n^3 / 2^53, compared with the probability vector on the class that balances the flows of the given matrix (the stationary distribution if the rows sum to one exactly).", "quantifier": "all accepted matrices of rationals, reducible or not, all d with (d+2)n <= 500", "why_tests_cant": "The bound is componentwise and relative, and holds for every matrix and order of states; tests compare a few chains with an absolute tolerance, which says nothing about small entries.", "anchors": ["pydtmc/computations.py:271-295", "pydtmc/markov_chain.py:866-887"]}
{"id": "C170", "title": "Passage times, committors and absorption with an inexact solver", "statement": "If the stored probabilities have a relative error of at most d, differences are rounded with a relative error u and the linear solver is backward stable with constant e, then with h = 3e+3u+d: mean_first_passage_times_to(targets) has at state i an error of at most 2 h T (m_i + 1), where T is the largest mean passage time, forward committor probabilities one of at most 2 h (m_i + 1) + 1e-8, entries of the fundamental matrix one of at most 2 h V t_i, where V is the largest expected number of visits and t_i the mean time to absorption, mean absorption times a relative error of the order of h V times the number of transient states, and absorption probabilities an absolute error of that order times t_i, as long as h (T + 1) <= 1/2.", "quantifier": "all irreducible (for passage times and committors) or arbitrary (for absorption) stochastic matrices, all targets, all solvers, inverses and dot products that meet the contracts", "why_tests_cant": "Tests compare a few small chains with a fixed tolerance. They cannot show that the largest mean time is the condition number, or that no other structure of the chain makes the error larger.", "anchors": ["pydtmc/measures.py:117-160", "pydtmc/measures.py:320-328", "pydtmc/measures.py:348-378", "pydtmc/markov_chain.py:534-552"]}
{"id": "C171", "title": "Hitting probabilities and times with an inexact nnls", "statement": "If the targets are reached from every state, the stored probabilities have a relative error of at most d, differences are rounded with a relative error u and sums with w, and nnls has small residuals with constant e whenever a nonnegative solution exists, then with h = 3e+3u+2d+2w and h (T + 1) <= 1/4, where T is the largest mean time m_i until the targets are visited: hitting_probabilities returns numbers that differ from one by at most 3 h (m_i + 1), and exactly one on the targets; hitting_times reports no time as infinite, returns zero on the targets, and has an error of at most 2 h T (m_i + 1) elsewhere.", "quantifier": "all stochastic matrices and targets that are reached from every state, all accepted target arguments, all nnls routines and sums that meet the contracts", "why_tests_cant": "Tests compare a few small chains with a fixed tolerance. They cannot show that the computed system always has a nonnegative solution, that no rounding makes a finite time infinite, or that the largest mean time is the condition number.", "anchors": ["pydtmc/measures.py:270-317", "pydtmc/markov_chain.py:1326-1379"]}
{"id": "C172", "title": "The test of reversibility in double arithmetic", "statement": "With doubles throughout (stationary distribution, flows, tolerances and comparisons), is_reversible is false if there is more than one recurrent class; otherwise it is true if every flow x_i p_ij agrees with the opposite flow x_j p_ji within 99 percent of the tolerance 1e-8 + 1e-5 x_j p_ji, and true only if they agree within 101 percent. In particular it recognises chains in detailed balance, and it gives the answer of exact arithmetic unless some difference is within one percent of the tolerance.", "quantifier": "all accepted matrices with n states and positive entries of at least 2^-d with (d+2) n <= 500 (C172_agrees_partial and C172_detailed_balance_partial: stochastic ones)", "why_tests_cant": "The answer depends on a chain of roundings in the elimination, the products and the comparison; tests try a few chains and cannot exclude that accumulated errors flip the answer for another one.", "anchors": ["pydtmc/markov_chain.py:719-734", "pydtmc/computations.py:271-295"]}
{"id": "C173", "title": "Mean first passage times between all states and between sets of states with inexact arithmetic", "statement": "Let the probabilities, the computed stationary distribution, the arithmetic and the inverse be accurate up to relative errors delta, psi, u and (residual compared with norms) e. If T bounds the mean first passage times to a state j and (4e+8u+delta+psi)(T+1) <= 1/8, every entry of column j of mean_first_passage_times_to() has a relative error of at most 10(4e+8u+delta+psi)(T+1), although the program divides differences by stationary probabilities that can be tiny; the diagonal is exactly zero. mean_first_passage_times_between has an error of at most a similar factor times its value plus one.", "quantifier": "all irreducible chains, all roundings, all solvers, inverses, sums and products satisfying the contracts; C173_double_partial uses the stationary distribution computed in double arithmetic, for chains with n states and positive probabilities of at least 2^-d, (d+2) n <= 500", "why_tests_cant": "The differences z_jj - z_ij cancel and are divided by small numbers; whether errors are amplified depends on the chain, and tests compare a few well conditioned chains with stored values.", "anchors": ["pydtmc/measures.py:331-345", "pydtmc/measures.py:348-365"]}
{"id": "C174", "title": "Backward committor probabilities and the Kemeny constant with inexact arithmetic", "statement": "Let the probabilities, the computed stationary distribution x', the arithmetic and the solver be accurate up to relative errors delta, psi, u and (residual compared with norms) e, and let xi be at most every stationary probability. The backward committor probability of a state has an error of at most 2(3e/xi+12u+2delta+4psi)(m+1) + 1e-8, where m is the mean time the reversed chain needs to visit one of the sets. The error of the solver is divided by xi, and this cannot be avoided for solvers with small residuals: such a solver can return a probability that is wrong by 1/2. The Kemeny constant has a relative error of at most E + w(1+E), E = 2(3e+3u+delta)VT, where V bounds the mean numbers of visits, T the mean times to absorption and w is the error of the sum.", "quantifier": "all irreducible (backward) and absorbing (Kemeny) chains, all roundings, solvers, inverses and sums satisfying the contracts; the lower bound is a concrete chain of doubles with a solver that satisfies the contract for e = 2^-52", "why_tests_cant": "The rows of the backward system are multiplied by stationary probabilities, which differ by orders of magnitude in few chains; tests compare well conditioned chains with stored values.", "anchors": ["pydtmc/measures.py:133-160", "pydtmc/markov_chain.py:773-789"]}
{"id": "C175", "title": "Mean numbers of visits with inexact arithmetic", "statement": "Let the probabilities, the arithmetic and the solver be accurate up to relative errors delta, u and (residual compared with norms) e, let T bound the mean times until a recurrent state is visited, and let eps = 2(3e+2u+delta)(T+1). If a transient state j is revisited with a probability f_jj that is below one by more than eps+1e-8+1e-5, the entries of column j of mean_number_visits are finite and differ from f_ij/(1-f_jj) by at most (6 eps+1e-8)/(1-f_jj) plus the relative error 4 eps/(1-f_jj)+13u. For a recurrent state j the entry is infinite where j is visited with a probability above 1e-8+eps, and zero where j cannot be reached.", "quantifier": "all chains with a valid exact matrix, all roundings and all solvers satisfying the contracts", "why_tests_cant": "Whether the comparisons with zero and one still separate the cases after rounding depends on the chain; tests compare few chains with stored values.", "anchors": ["pydtmc/measures.py:381-454", "pydtmc/markov_chain.py:1585-1599"]}
{"id": "C176", "title": "Sensitivities are differences of mean first passage times, also with inexact least squares", "statement": "For an irreducible chain the entry (i, j) of sensitivity(s) is pi_i pi_s (M - m_j), where m_j is the mean first passage time from j to s and M its mean under pi. With probabilities, stationary distribution, arithmetic, products and least squares accurate up to relative errors delta, psi, u, w and (residual compared with norms) e, the error of the entry is at most pi_i X (2(4e+3u+delta)(m_j + M) + 24u+6psi+2w), where X bounds the entries of the vector returned by lstsq.", "quantifier": "all irreducible chains, all states, all roundings, products and least squares solvers satisfying the contracts", "why_tests_cant": "Tests compare few chains with stored values; the formula and the bound hold for every chain, and cancellation in the last line depends on the size of the least squares solution.", "anchors": ["pydtmc/measures.py:496-517", "pydtmc/markov_chain.py:1764-1786"]}
{"id": "C177", "title": "Time correlations, relaxations and expected transitions keep relative accuracy under rounding", "statement": "For time points t (numbers of steps) up to the number n of states, computed with rounded operations of unit u: every time correlation is the exact one up to the factor (1/(1-u))^(3n^3+1+(t+1)n), every time relaxation up to (1/(1-u))^((t+1)n), and every entry of expected_transitions is the value without rounding up to (1/(1-u))^((steps-1)(n+1)+1). None is returned exactly for chains with several stationary distributions. In doubles with n <= 1000 the relative errors of correlations and relaxations are below 1e-6 and 3e-10.", "quantifier": "all valid chains, sequences, distributions, accepted time points up to the number of states, all arithmetics satisfying the contract (any order of summation)", "why_tests_cant": "Tests compare rounded values for few chains with a tolerance; the bound holds for all chains, also with tiny probabilities.", "anchors": ["pydtmc/measures.py:174-185", "pydtmc/measures.py:520-609", "pydtmc/measures.py:612-685"]}
{"id": "C178", "title": "The entropy rate keeps relative accuracy under rounding, up to its sign near the tolerance", "statement": "With rounded operations of unit u and a logarithm that is off by the factor of at most L roundings, the absolute value of entropy_rate is the entropy rate up to the factor (1/(1-u))^N with N = 3n^3+L+2+n^2, so it is zero exactly if the rate is zero. It is positive if the rate exceeds 1e-8 by the factor (1/(1-u))^(N+3) and not positive if the rate is below 1e-8 by that factor. The normalised rate is off by the factor of N+M+1 roundings if the topological entropy is off by M roundings and the computed rate exceeds 1e-8 (1/(1-u))^3. None is returned for chains with several stationary distributions.", "quantifier": "all valid chains, all arithmetics, roundings and logarithms satisfying the contracts", "why_tests_cant": "Tests compare rounded values of few chains; whether small rates are lost, and on which side of the tolerance a rounded sum falls, needs a bound for all chains.", "anchors": ["pydtmc/markov_chain.py:488-510", "pydtmc/markov_chain.py:513-531"]}
{"id": "C179", "title": "Labels derived from data are valid state names for these data", "statement": "create_labels_from_data returns labels exactly for lists of integers or of non-blank strings with at least two different values. The labels are one per different value, distinct and non-blank, so that they are accepted as state names. The data themselves are then an accepted sequence of states for these labels.", "quantifier": "all argument values and prefixes", "why_tests_cant": "The function is not called by the library or its tests; the claim is about every list.", "anchors": ["pydtmc/utilities.py:140-162"]}
{"id": "C180", "title": "Fits to sequences in double arithmetic", "statement": "fit_sequence of type mle without smoothing returns, for sequences of at most 2^53 states, exactly the doubles nearest to the relative frequencies of the transitions (or to 1/n for states that are never left). With smoothing every probability is off by the factor of at most n+5 roundings, for type map with positive integer hyper-parameters by at most n+3.", "quantifier": "all sequences, numbers of states and hyper-parameters with totals up to 2^53, every order of summation that is exact on integers", "why_tests_cant": "Tests fit few short sequences and compare with a tolerance; exactness for all lengths is a statement about integer counts in doubles.", "anchors": ["pydtmc/fitting.py:289-330"]}
{"id": "C181", "title": "Files with invalid data are rejected with a ValueError", "statement": "The documentation of from_file promises a ValueError if the file contains invalid data. For both classes and all four formats every failure after the validation of the path is a ValueError, except that a JSON file with an integer of 2^1024 - 2^970 or more makes the conversion to float fail with an OverflowError.", "quantifier": "all contents of files in the four formats, all numbers of rows, objects and elements, every conversion of strings to numbers", "why_tests_cant": "The branches that reject files are excluded from the coverage of the tests (pragma: no cover), and no test reads a malformed file.", "anchors": ["pydtmc/files_io.py:66-333", "pydtmc/markov_chain.py:2429-2461", "pydtmc/hidden_markov_model.py:754-798"]}
{"id": "C182", "title": "Birth-death chains in floating point stay stochastic", "statement": "birth_death computes the probabilities to stay as 1 - q - p in floating point. They may be negative for accepted vectors (p = 1, q = 2^-53: the sum rounds to 1). The chain that is returned nevertheless has nonnegative probabilities, only transitions between neighbours, rows that sum to one up to n + 1 roundings, and every probability is within 1e-7 of its definition.", "quantifier": "all accepted vectors, all sizes n with (n + 10) u <= 1e-8 (ninety million states in doubles), every rounding with relative error u and every sound order of summation", "why_tests_cant": "The dangerous inputs are pairs of doubles whose sum is rounded down to one; tests use short decimal fractions.", "anchors": ["pydtmc/generators.py:557-569", "pydtmc/markov_chain.py:2176-2211"]}
{"id": "C183", "title": "Gambler's ruin, urn models and bounded chains in floating point", "statement": "Computed with rounding, gamblers_ruin, urn_model and to_bounded_chain accept exactly the arguments that they accept without rounding. The matrices they return pass the validation of transition matrices (entries between 0 and 1, row sums within the tolerance). Every probability is off by at most one unit of rounding, or eleven units for the urn models.", "quantifier": "all arguments, all sizes, every monotone rounding with relative error u <= 1e-9, every square function with this error", "why_tests_cant": "Tests use few sizes and compare with a tolerance; bounds for all sizes and all win probabilities are statements about every double.", "anchors": ["pydtmc/generators.py:572-601", "pydtmc/generators.py:828-842", "pydtmc/generators.py:1018-1061", "pydtmc/markov_chain.py:1906-1931", "pydtmc/markov_chain.py:2548-2577", "pydtmc/markov_chain.py:2742-2771"]}
{"id": "C184", "title": "Wrong types and wrong values are told apart", "statement": "The validators of booleans, integers, floats, enumerators, resolutions, boundary conditions, labels, lists of labels, time points, vectors, rewards, statuses, matrices, masks, hyperparameters and models raise TypeError exactly if the argument has a wrong type, and otherwise accept it or raise ValueError. The same should hold for label lists, sequences, lists of strings and partitions.", "quantifier": "all argument values, all labels, limits and sizes", "why_tests_cant": "The test fixtures only record whether an argument is accepted, never with which exception it is rejected.", "anchors": ["pydtmc/validation.py:138-166", "pydtmc/validation.py:232-276", "pydtmc/validation.py:333-345", "pydtmc/validation.py:438-463", "pydtmc/validation.py:490-613", "pydtmc/validation.py:646-735", "pydtmc/validation.py:738-796", "pydtmc/validation.py:836-886", "pydtmc/validation.py:922-1027", "pydtmc/validation.py:1063-1124", "pydtmc/utilities.py:192-202"]}
{"id": "C185", "title": "Validation of matrices, symmetry and double stochasticity in floating point", "statement": "Computed with rounding, the constructor of chains, the validators of transition and emission matrices, is_symmetric and is_doubly_stochastic give the same result or exception as without rounding, unless some difference that is compared lies within one percent of the tolerance of np.isclose. Whatever is accepted has entries between 0 and 1 and row sums within 101 percent of the tolerance; exactly symmetric and exactly doubly stochastic matrices are always recognised.", "quantifier": "all arguments, all sizes n with nu <= 1e-8 (ninety million states for doubles), every order of summation, every rounding with relative error u <= 1e-9", "why_tests_cant": "Tests use rows that sum to one or miss it widely; that no rounding of sums, tolerances and comparisons changes an answer is a statement about all matrices.", "anchors": ["pydtmc/validation.py:249-265", "pydtmc/validation.py:1063-1082", "pydtmc/markov_chain.py:210-231", "pydtmc/markov_chain.py:667-675", "pydtmc/markov_chain.py:762-770"]}
{"id": "C186", "title": "Random chains and random hidden models in floating point", "statement": "Computed with rounding, the rows that mc_random and hmm_random fill and scale keep the entries of the mask, have entries between 0 and 1 and sum to one up to (5n+5)u, so the matrix passes the validation of transition matrices. The sum that validate_mask compares with one is the number that the generators subtract from one, so that no drawn entry becomes negative.", "quantifier": "all masks of doubles accepted by validate_mask, all placed zeros, all draws that are not all zero in a row, all sizes n with nu <= 1e-7, every monotone rounding with fl(1+u)=1, sums from the left to the right", "why_tests_cant": "Random matrices are tested for a few seeds; a negative or too large probability would only appear for special masks and draws.", "anchors": ["pydtmc/generators.py:94-166", "pydtmc/generators.py:934-981", "pydtmc/validation.py:646-667"]}
{"id": "C187", "title": "Dirichlet processes in floating point", "statement": "Computed with rounding, the allocated probability of the stick breaking loop of mc_dirichlet_process never exceeds one, so that no weight is negative, and the matrix has entries between 0 and 1 and row sums within the tolerance of the constructor, with or without diagonal bias and shift of the concentration.", "quantifier": "all draws between 0 and 1 that are not all zero in a row, all nonnegative biases, both shifts, all sizes n with (2n+1)u <= 1e-6, every monotone rounding with fl(1+u)=1, sums from the left to the right", "why_tests_cant": "The allocated probability could exceed one by a rounding error only for special draws, which fixed seeds do not reach.", "anchors": ["pydtmc/generators.py:795-825"]}
{"id": "C188", "title": "Population genetics models in floating point", "statement": "Computed with rounding, population_genetics_model returns a matrix with entries between 0 and 1 and row sums within the tolerance of the constructor for every accepted call; the first and the last states are absorbing exactly. The chance of staying in the Moran model, 1 - pm1 - pp1, never becomes negative by cancellation, the rates are accurate up to 11 roundings and the entries up to (2n+84)u, and the success probability of the Wright-Fisher model has a positive denominator and lies between 0 and 1.", "quantifier": "both models, all n from 2 to 500, all accepted s, u, v, every monotone rounding with unit at most 1e-10, sums from the left to the right", "why_tests_cant": "A subtraction that cancels below zero would only appear for special rates; tests use a handful of parameters.", "anchors": ["pydtmc/generators.py:887-930", "pydtmc/markov_chain.py:2606-2646"]}
{"id": "C189", "title": "The Rouwenhorst approximation in floating point", "statement": "Computed with rounding, the Rouwenhorst matrix of n states is, entry by entry and up to a relative error of 12nu, the exact matrix for an autocorrelation within 8u of the given one. Its entries are never negative, are positive exactly where the exact ones are, and its rows sum to one up to 12nu although they are not divided by their sums. With doubles and an autocorrelation that is not negative no entry exceeds one and the matrix passes the checks of the constructor.", "quantifier": "all sizes n with 6nu <= 1/10, all autocorrelations from -1 to 1, every monotone rounding that keeps 1 and 2", "why_tests_cant": "The recursion could amplify rounding errors with the size; tests use a few sizes.", "anchors": ["pydtmc/generators.py:395-416", "pydtmc/generators.py:436-439", "pydtmc/markov_chain.py:2118-2172"]}
{"id": "C190", "title": "The Tauchen approximation in floating point", "statement": "Computed with rounding, the entries of the Tauchen matrix lie between zero and one, and its rows, which are not divided by their sums, sum to one up to (n-1)(u + L(nu + 28Xu)/sigma + 2delta), where X bounds the nodes, nu bounds the error of their spacing, and the computed distribution function is within delta of one with Lipschitz constant L. If this is at most 1e-5 the matrix passes the checks of the constructor.", "quantifier": "all sizes n >= 2, all computed nodes with 14Xu <= step <= X, all autocorrelations from -1 to 1, all positive sigma, every monotone computed distribution function with values from 0 to 1", "why_tests_cant": "The upper end of an interval and the lower end of the next are computed separately, so the sums do not telescope exactly; tests use a few sizes and parameters.", "anchors": ["pydtmc/generators.py:525-550", "pydtmc/markov_chain.py:2118-2172"]}
