# PyDTMC: formal model and proofs — design and state

The subject is `/repo` (TommasoBelluzzo/PyDTMC, package `pydtmc`). The model is in `lean/Verif/`, built
by `lake build` in `lean/`. Properties are listed in `properties.jsonl`; `MANIFEST.json` maps each one to
its theorems. State: 190 properties, of which 99 are proved as stated and 91 are
partial. Almost all partial ones are partial because the code violates the property for some accepted
input; the violation is then itself a theorem, with a concrete witness.

## 1. Layout

| Directory | Content |
|---|---|
| `Verif/Spec/` | vocabulary that does not refer to the code: stochastic matrices, walks and their probabilities, reachability, closed classes, stationary laws, periods, expected values over walks, joint probabilities of hidden models, optimality, what a file or a dictionary describes. |
| `Verif/Model/` | the code, function by function. Every definition cites file and lines in `/repo` and states its simplifications. |
| `Verif/Lemmas/` | helper lemmas. |
| `Verif/Props/` | the property theorems, one file per group, each with concrete cases beside it, and the negations with witnesses where the code violates a property. |

Names: `Cnn_...` belongs to property `Cnn`; the suffix `_partial` marks a theorem with a restriction that
the property does not have; a theorem whose comment begins with "fails" or "disagreement" is a negation.

## 2. Modelling decisions

* **Numbers.** Floats are elements of an arbitrary linearly ordered field `K` (ℚ for executable cases, ℝ
  where logarithms, square roots or limits occur, ℂ for eigenvalues). Arithmetic is exact
  except in `Model/Rounded.lean`, where the operations may round and only their relative error is bounded
  (`C147`-`C152`, `C169`, `C170`-`C178`, `C180`, `C182`, `C183`, `C185`, `C186`, `C187`, `C188`, `C189`, `C190`; `binary64` rounds to doubles without underflow and overflow, `double` with gradual underflow). Where a property is about special values they are explicit: `Flt K` has finite values, NaN and the infinities
  (`C12`, `C61`, `C77`, `C96`, `C111`), signed zeros in `C69`, 64-bit wrap-around of integer matrix powers
  in `C26`, overflow of sums in `C111`, `inf` in hitting times.
* **Tolerances.** `np.isclose(a, b)` is `|a - b| ≤ 1e-8 + 1e-5 * |b|` and `np.allclose` its conjunction,
  exactly as in the library, so the effect of tolerances on the claims is visible. Many negations come
  from the absolute part `1e-8`.
* **Arguments** of public methods are untyped values (`PyVal`: none, booleans, integers, floats, strings,
  lists, tuples, arrays) that pass through the model of the validation, so that acceptance is part of the
  theorems. Keyword names and default values follow the source.
* **Exceptions** are values: `R α = Except Err α` with `TypeError` and `ValueError`; other exceptions
  raised after the validation are the ones that occur in the theorem comments.
* **Loops** become folds or structural recursion; loops without a bound get a fuel that is shown to be
  sufficient, or the divergence is the claim (`C97_endless`).
* **Randomness**: draws are arguments, and claims hold for all draws in the range of the generator.
* **Threads**: small-step interleavings with reentrant locks (`C66`, `C81`).
* **Sharing**: a heap with object identities (`C67`, `C70`).
* **Files**: texts are lists of characters, the readers and writers work on characters; the file system of
  `C114` is a map from paths to texts.
* **Plots**: the model returns the arrays, labels and limits that the code passes to matplotlib.

### Contracts of external routines

Each one is a parameter of the model with a stated contract, and for each contract there is an instance
that meets it.

| Routine | Contract |
|---|---|
| `networkx` strongly connected components, search layers | `IsClasses`, `Nx.Sound` |
| `np.linalg.inv`, `solve` | inverse and solution when the determinant is nonzero, an exception otherwise |
| `np.linalg.lstsq` | `Lstsq.Sound`: a least squares solution |
| `scipy.optimize.nnls` | `Nnls.Sound` |
| `np.linalg.eig`, `eigvals` | `EigResult.Sound`, `EigvalsSound`, `AdjacencyEigvals`, `Rdl.Sound` |
| `Generator.choice`, `random` | `Choice.Sound`, `DrawsOk`, `GridDrawsOk`: results have positive probability, draws are in range |
| `scipy.optimize.minimize` in `closest_reversible` | `Minimizer.Sound ε`: feasible, optimal up to ε |
| `scipy.stats.norm` | cumulative distribution function monotone in [0, 1]; `IsPpf` for its inverse |
| `scipy.stats.chi2` | `IsChi2Cdf`: values in [0, 1], NaN for degrees of freedom that are not positive |
| printing and parsing of floats | a parser that inverts the printer, no separators in the output |
| `csv`, `json`, `xml` | writers and readers of the dialects in use, at the level of characters for TXT and CSV and of parsed trees for JSON and XML |

## 3. Properties

| Id | Title | Status | Files under `Props/` |
|---|---|---|---|
| C01 | The constructor accepts exactly the stochastic matrices | proved | RuleNames, Validation |
| C02 | Validation cannot be bypassed by a caller | partial | HiddenModel, Validation |
| C03 | Numeric limits are enforced as documented | proved | Arguments |
| C04 | State arguments resolve to the right state | partial | Arguments |
| C05 | Partitions accepted for lumping are partitions | proved | Arguments |
| C06 | from_matrix and from_graph normalise any nonnegative matrix to a chain | partial | Generators |
| C07 | Gambler's ruin chains | proved | Generators |
| C08 | Urn models are stochastic and reversible with the classical stationary law | proved | Urn |
| C09 | The Moran model is a chain | partial | Urn |
| C10 | The Wright-Fisher model is a chain | proved | Urn |
| C11 | Birth-death chains | partial | Transform |
| C12 | Bounded chains | partial | Transform |
| C13 | Lazy chains keep the long-run behaviour | proved | Transform |
| C14 | Merging chains | proved | Transform |
| C15 | n-th order chains and n-step laws agree | proved | Transform |
| C16 | Dirichlet-process chains | partial | Random |
| C17 | Random chains respect mask and zeros | partial | Random |
| C18 | Rouwenhorst approximation | proved | Rouwenhorst |
| C19 | Tauchen approximation | partial | Tauchen |
| C20 | Canonical form is a relabelling | proved | Canonical |
| C21 | Subchains are closed | proved | Subchain |
| C22 | Lumping is exact | partial | Lump |
| C23 | lumping_partitions lists all lumpable partitions | partial | Lump |
| C24 | Maximum likelihood fitting | proved | Fitting |
| C25 | Maximum a posteriori fitting | proved | Fitting |
| C26 | Accessibility is reachability | partial | Accessibility |
| C27 | Communicating classes partition the states | proved | Classes |
| C28 | Recurrent and transient classification | proved | Classes |
| C29 | is_absorbing | partial | Absorbing |
| C30 | is_irreducible | proved | Classes |
| C31 | is_regular decides primitivity | proved | Regular |
| C32 | Periods | partial | Periods |
| C33 | Cyclic classes | proved | Cyclic |
| C34 | pi returns the stationary distribution | proved | Stationary |
| C35 | pi of a reducible chain | proved | Stationary |
| C36 | is_stochastically_monotone | proved | Monotone |
| C37 | is_reversible | partial | Monotone |
| C38 | fundamental_matrix counts visits | proved | Absorption |
| C39 | absorption_probabilities | partial | Absorption |
| C40 | mean_absorption_times | proved | Absorption |
| C41 | committor_probabilities | partial | Passage |
| C42 | hitting_times | proved | Hitting |
| C43 | hitting_probabilities | proved | Hitting |
| C44 | mean_first_passage_times_to | proved | Passage |
| C45 | mean_recurrence_times | partial | Passage |
| C46 | expected_rewards | proved | Rewards |
| C47 | expected_transitions | partial | Rewards |
| C48 | first_passage_probabilities | partial | Rewards |
| C49 | first_passage_reward | proved | Rewards |
| C50 | mixing_time | partial | Mixing |
| C51 | kemeny_constant and fundamental matrix structure | proved | Absorption |
| C52 | entropy_rate | partial | Entropy, Growth |
| C53 | simulate only follows possible transitions | proved | Simulation |
| C54 | predict returns a most probable continuation | partial | Simulation |
| C55 | sequence_probability | proved | Simulation |
| C56 | HMM decoding: likelihood and posteriors | partial | Decode, HiddenSimulation |
| C57 | Viterbi prediction | partial | Viterbi |
| C58 | HMM simulation emits only possible events | partial | HiddenSimulation |
| C59 | HMM restriction | partial | HiddenEstimate |
| C60 | HMM estimation | proved | HiddenEstimate |
| C61 | Test statistics are well-formed | proved | Assessments |
| C62 | Dictionary round trip | proved | Dictionary |
| C63 | File round trip | partial | Files |
| C64 | A crash while saving is never read back as another chain | partial | Truncation |
| C65 | Graph round trip | partial | GraphIO |
| C66 | Cached properties are computed at most once under any thread schedule | proved | Cached, CachedAlways, CachedFinish |
| C67 | Lazily computed attributes are read-only | proved | Objects |
| C68 | Aliases are faithful | partial | Objects |
| C69 | Equality and hash are consistent | partial | Objects |
| C70 | A chain never changes after construction | partial | Sharing |
| C71 | Generated labels are distinct | proved | Validation |
| C72 | fit_function produces a chain | partial | GaussLegendre, Quadrature |
| C73 | HMM fitting keeps the model stochastic | partial | HiddenFit |
| C74 | Posterior prediction is optimal | proved | Viterbi |
| C75 | HMM constructor soundness and completeness | proved | HiddenModel |
| C76 | Baum-Welch fitting never decreases the likelihood | proved | BaumWelch |
| C77 | Compatibility with a chain uses the likelihood ratio | partial | Assessments |
| C78 | Degrees of freedom of the Markov property test depend on states only | partial | Assessments |
| C79 | Stationarity is rejected only if blocks differ | partial | Assessments |
| C80 | Dictionaries describe chains | proved | Dictionary, FileContents |
| C81 | Methods that store their result compute it once under any thread schedule | partial | Objects |
| C82 | mean_number_visits returns the expected numbers of visits | partial | Visits |
| C83 | sensitivity is the derivative of the stationary distribution | proved | Sensitivity |
| C84 | Time correlations | partial | Rdl, Times |
| C85 | Time relaxations | partial | Rdl, Times |
| C86 | Second largest eigenvalue modulus and the rates built on it | partial | Spectral |
| C87 | Implied timescales | proved | Spectral |
| C88 | Ergodic and regular chains agree | proved | Ergodic |
| C89 | is_symmetric and is_doubly_stochastic | partial | Descriptors |
| C90 | density | proved | Descriptors |
| C91 | topological_entropy | proved | Growth |
| C92 | incidence_matrix | partial | Descriptors |
| C93 | cyclic_states and is_cyclic_state | proved | Descriptors |
| C94 | transition_probability and emission_probability | proved | Descriptors |
| C95 | is_ergodic and is_regular of hidden models | proved | Descriptors |
| C96 | Bottom-up aggregation returns an aggregated chain | partial | Aggregate |
| C97 | Top-down aggregation returns an aggregated chain with s states | partial | Aggregate |
| C98 | The divergence of an aggregation is a relative entropy | partial | Divergence |
| C99 | Mean first passage times between sets | proved | Passage |
| C100 | Files that were not written by the library | partial | FileContents |
| C101 | Hidden Markov models from graphs | partial | HiddenGen |
| C102 | Hidden Markov models from matrices | partial | HiddenGen |
| C103 | Random hidden Markov models | partial | HiddenGen |
| C104 | The closest reversible chain | partial | Reversible |
| C105 | Adda-Cooper chains have the true probabilities to move between equally likely intervals | partial | AddaCooper |
| C106 | Tauchen-Hussey chains weigh Gauss-Hermite nodes by the density of the process | partial | TauchenHussey |
| C107 | A flow plot shows the redistributed probabilities | partial | FlowPlot |
| C108 | A trellis plot shows the possible transitions and the most probable path | partial | TrellisPlot |
| C109 | A graph plot shows the chain | partial | GraphPlot |
| C110 | Sequence and redistributions plots show the runs and the laws they name | proved | SequencePlot |
| C111 | Chains drawn from a random distribution are in proportion to the draws | partial | RandomDistribution |
| C112 | Comparison plots show every model once under its own name | proved | ModelPlots |
| C113 | Eigenvalue plots show all eigenvalues and the spectral gap | partial | ModelPlots |
| C114 | File names with an accepted ending are accepted, and validation touches no other file | partial | FilePaths |
| C115 | Transition functions receive the arguments that their parameters name | partial | TransitionFunction |
| C116 | Simulated runs of a chain have the law of the chain | proved | SimulationLaw |
| C117 | Simulated runs of a hidden model have the law of the model | proved | SimulationLaw |
| C118 | Regular chains converge to pi, irreducible chains converge on average | proved | LongRun |
| C119 | State frequencies of simulated runs concentrate at pi | proved | LongRun |
| C120 | Maximum likelihood fitting recovers the simulated chain | proved | LongRun |
| C121 | Which raw matrices, vectors, masks and labels are accepted | proved | RawArguments |
| C122 | Simulated runs are equally likely up to the entropy rate | proved | Equipartition |
| C123 | Fitting with prior weights recovers the simulated chain | proved | Smoothing |
| C124 | Passage quantities describe simulated runs | proved | SimulatedPassage |
| C125 | Seeds make the random methods reproducible | proved | Seeds |
| C126 | Validation errors name the rejected argument | proved | Messages |
| C127 | Arguments that are models | proved | ModelArguments |
| C128 | Descriptions | partial | Description |
| C129 | Speed of convergence | proved | Rate |
| C130 | Estimation from simulated hidden runs | proved | HiddenConsistency |
| C131 | Decoding of simulated hidden runs | proved | DecodeSimulated |
| C132 | Long run of chains with several classes | proved | ReducibleLongRun |
| C133 | Limit of the law of chains with several classes | proved | ReducibleLimit |
| C134 | The order of the states does not matter | partial | Relabel |
| C135 | Identity chains | proved | Identity |
| C136 | Lumping keeps the measures of the groups | proved | Lumped |
| C137 | Values over a fixed number of steps describe simulated runs | partial | SimulatedValues |
| C138 | Lazy chains keep or rescale the measures | proved | Lazy |
| C139 | Chains of higher order keep the measures they should keep | partial | NthOrder |
| C140 | Calls return a result exactly for the arguments in the documented ranges | partial | AcceptedCalls |
| C141 | Methods that describe the same quantity agree | partial | Agreement |
| C142 | Generated models behave as the models they are named after | proved | Textbook |
| C143 | Subchains keep the measures of their states | partial | SubMeasures |
| C144 | What merging keeps of two chains | proved | Merged |
| C145 | Decoding agrees with the chain behind a hidden model | proved | HiddenAgreement |
| C146 | Which calls of the hidden models and of the fits return a result | proved | AcceptedHidden |
| C147 | Floating point error of the stationary distributions | proved | Rounding |
| C148 | Floating point error of redistributions, rewards, first passages and powers | proved | RoundedMeasures |
| C149 | Floating point error of decoding | proved | RoundedDecode |
| C150 | Matrices of chains created by the library pass the checks of the constructor in floating point | partial | RoundedChains, RoundedLump, RoundedMeasures |
| C151 | Regularity in double arithmetic | partial | Underflow |
| C152 | Stationary distributions in double arithmetic are returned | partial | PiReturns, Underflow |
| C153 | Every accepted chain can be simulated | partial | CheckedSimulation |
| C154 | Quadrature rules integrate polynomials of their degree exactly | partial | GaussLegendre, QuadratureDegree, RuleNames |
| C155 | Rouwenhorst chains over several steps | proved | RouwenhorstPowers |
| C156 | Fitting a hidden model by its predicted paths | partial | PathFit |
| C157 | The stationarity test detects blocks that behave differently | partial | TestPower |
| C158 | The homogeneity test compares transition probabilities | partial | TestPower |
| C159 | The test of the Markov property | partial | OrderTest |
| C160 | The Kemeny constant is a sum over eigenvalues | proved | KemenySpectrum |
| C161 | Lumping in double arithmetic | partial | RoundedTests |
| C162 | Monotonicity in double arithmetic | partial | RoundedTests |
| C163 | Mean time to a random target | proved | RandomTarget |
| C164 | A crash while saving a hidden model is never read back as another model | partial | HiddenTruncation |
| C165 | Simulation in double arithmetic | partial | RoundedSimulation |
| C166 | Predicted paths are possible | partial | PredictedPaths |
| C167 | The mixing time in floating point is the exact one unless a distance is almost equal to the cutoff | partial | RoundedMixing |
| C168 | The probability of a sequence in floating point | partial | RoundedSequence |
| C169 | Stationary distributions in double arithmetic are accurate | partial | PiDouble, RecurrenceDouble |
| C170 | Passage times, committors and absorption with an inexact solver | proved | RoundedSolve |
| C171 | Hitting probabilities and times with an inexact nnls | proved | RoundedHitting |
| C172 | The test of reversibility in double arithmetic | partial | RoundedReversible |
| C173 | Mean first passage times between all states and between sets of states with inexact arithmetic | proved | RoundedPassage |
| C174 | Backward committor probabilities and the Kemeny constant with inexact arithmetic | proved | RoundedBackward |
| C175 | Mean numbers of visits with inexact arithmetic | proved | RoundedVisits |
| C176 | Sensitivities are differences of mean first passage times, also with inexact least squares | proved | RoundedSensitivity |
| C177 | Time correlations, relaxations and expected transitions keep relative accuracy under rounding | proved | RoundedTimes |
| C178 | The entropy rate keeps relative accuracy under rounding, up to its sign near the tolerance | proved | RoundedEntropy |
| C179 | Labels derived from data are valid state names for these data | partial | DataLabels |
| C180 | Fits to sequences in double arithmetic | proved | RoundedFitting |
| C181 | Files with invalid data are rejected with a ValueError | partial | FileErrors |
| C182 | Birth-death chains in floating point stay stochastic | proved | RoundedBirth |
| C183 | Gambler's ruin, urn models and bounded chains in floating point | proved | RoundedGenerators |
| C184 | Wrong types and wrong values are told apart | partial | ErrorKinds |
| C185 | Validation of matrices, symmetry and double stochasticity in floating point | proved | RoundedChecks |
| C186 | Random chains and random hidden models in floating point | proved | RoundedRandom |
| C187 | Dirichlet processes in floating point | proved | RoundedDirichlet |
| C188 | Population genetics models in floating point | partial | RoundedPopulation |
| C189 | The Rouwenhorst approximation in floating point | proved | RoundedRouwenhorst |
| C190 | The Tauchen approximation in floating point | proved | RoundedTauchen |

## 4. Where the code does not do what it says

The theorems named here prove the disagreement for a concrete input or a family of inputs. The notes of
`MANIFEST.json` have one entry per property; these are the ones with the widest consequences.

**Wrong results for ordinary arguments**

* `expected_transitions` adds distributions in place into an array it still reads: every result for more
  than two and at most `n` steps is wrong (`C47_wrong_total`).
* `time_correlations` and `time_relaxations` take real parts of factors of complex eigenvalues: wrong for
  irreducible chains with complex eigenvalues at time points above the number of states (`C84_complex_eigenvalues`, `C85_complex_eigenvalues`).
* `predict` follows the most probable single steps, which is not a most probable continuation, and gives
  up at ties that do not matter (`C54_not_most_probable`, `C54_none_though_unique`).
* `first_passage_probabilities` for a set of states adds first passage probabilities of its members; the
  sum may exceed one (`C48_set_exceeds_one`).
* `mixing_time` returns times after the jump and drops the last iteration (`C50_jump`, `C50_last_iteration`).
* `accessibility_matrix` wraps around in 64-bit integers: wrong for a chain with 18 states (`C26_overflow`), right up to 17.
* `lumping_partitions` lists only partitions into consecutive states, and `lump` rejects the others
  (`C23_missing`, `C22_order_required`).
* Hidden models use three conventions for the first symbol: the simulation emits it in the start state, the
  decoding after a first transition (`C56_disagrees_with_simulation`), and the Viterbi recursion counts it
  for both (`C57_wrong_path`, `C57_wrong_value`, `C57_none_though_certain`).
* `predict` of the type `map` may return a path with a transition of probability zero (`C166_map_impossible`).
* `fit` of the types `map`, `mle` and `viterbi` divides the counts of every sequence before adding them: for
  sequences of different lengths it leaves the best model for a worse one (`C156_unequal_lengths`), and it raises for a guess that
  explains the symbols with certainty (`C156_certain_rejected`).
* `HMM.restrict` keeps the columns of removed symbols in some shapes (`C59_columns_not_removed`).
* The Moran model with selection above one gives negative probabilities, and it mixes up its mutation rates
  (`C09_negative_probabilities`, `C09_mutation_rates_disagree`).
* `assess_stationarity` with one block, the default, rejects every sequence (`C79_one_block`);
* `assess_stationarity` with fewer blocks than states, or with two of each, rejects no sequence of any
  length, because the block tables are divided by their row sums before the statistic is computed
  (`C157_fewer_blocks_than_states`, `C157_two_blocks_two_states`);
* `assess_markov_property` rejects every constant sequence of three or more elements with the statistic
  zero and uses too many degrees of freedom (`C159_constant_rejected`,
  `C159_degrees_of_freedom`), and it rejects any two different observations (`C159_two_observations`);
* `assess_homogeneity` also compares how often the sequences visit the states and rejects sequences of one
  chain for that (`C158_decomposition`, `C158_false_rejection`);
  `assess_theoretical_compatibility` divides by column sums (`C77_infinite`); the degrees of freedom of
  `assess_markov_property` depend on how labels concatenate (`C78_labels_matter`).
* `periods` and `period` of chains with several classes: transient classes count as one, the order is not that
  of the classes, and `period` depends on the order in which the states are listed, so that
  `to_canonical_form` changes it (`C32_transient_class`, `C32_order`, `C32_period_reducible`, `C134_period`).
* Tauchen-Hussey nodes are too wide and the chain too persistent (`C106_nodes_too_wide`,
  `C106_too_persistent`).
* Bottom-up aggregation gives NaN, top-down aggregation drops states or does not end (`C96_nan`,
  `C97_state_dropped`, `C97_endless`).
* The Newton-Cotes rule of `fit_function` ignores the start of the interval: its nodes lie outside and it
  integrates `x` wrongly for every interval that does not start at zero (`C154_newton_cotes_partial`).
* `incidence_matrix` does not look at the transitions (`C92_ignores_transitions`).
* `closest_reversible` returns chains unchanged that are reversible with respect to another distribution than the
  given one, and raises for chains with several stationary distributions
  (`C104_distribution_ignored`, `C104_frozen_raises`).
* Flow and trellis plots hide the last column, shift values and miss first steps (`C107_...`, `C108_...`);
  graph plots repeat colours from ten classes on and label possible transitions with zero (`C109_...`).

**Objects that are not what they promise**

* The constructor skips its validation for callers with the names of generators (`C02_validation_can_be_bypassed`).
* Generators that return unvalidated matrices: `dirichlet_process` (`C16_null_draws`),
  `random_distribution` (`C111_not_a_chain`), `fit_function` for negative
  functions (`C72_negative_probabilities`), files with probabilities outside [0, 1]
  (`C100_negative_probability`), hidden models with surplus emission columns (`C73_extra_columns`).
* Chains can change after construction through shared lists and arrays (`C70_...`); equal chains may hash
  differently (`C69_negative_zero`); an alias of a cached property recomputes (`C68_alias_recomputes`);
  methods that store results may compute twice under threads (`C81_computed_twice`).

**Files**

* Labels with white space do not survive TXT, XML and HMM CSV files (`C63_...`).
* A text file cut inside its last number may be read as another chain (`C64_other_chain`).
* A text file of a hidden model that is cut inside a number of its last row may be read as a model with quite different
  emission probabilities, because missing entries are filled with zeros (`C164_other_model`).
* File names with a dot inside the stem are rejected (`C114_inner_dot`).

**Tolerances**

* Values below `1e-8` are taken for zero or rows near one for one: `C06_tiny_rows_become_uniform`,
  `C11_small_probabilities_dropped`, `C29_tolerance`, `C37_rare_moves`, `C39_sticky`, `C41_small_values`,
  `C45_rare_state`, `C52_negative`, `C56_tiny`, `C82_sticky`, `C82_unlikely`, `C86_near_one`,
  `C89_tolerance`, `C101_tiny_weights`, `C102_tiny_rows`, `C113_near_one`.

**Validation**

* A minimum number of states is not enforced for a single state (`C04_minimum_not_enforced`); NaN is
  accepted as a boundary condition (`C12_nan_accepted`); correlations of modulus one pass the validation
  and then raise (`C19_minus_one_raises`, `C105_unit_root_raises`); the order of the parameters of a
  transition function is not checked (`C115_swapped_chain`); instances of classes derived from
  `MarkovChain` are rejected as arguments (`C127_subclass`); in doubles the matrix of `to_nth_order` may have
  entries above one, which the constructor rejects (`C150_power_rejected`); so do lumped chains
  (`C150_lumped_rejected`).

* The constructor accepts rows that sum to one up to 1e-5, the generator of numpy up to 1.5e-8: for accepted
  probabilities such as 0.33333 `simulate` and `next` always raise (`C153_simulate_raises`,
  `C153_hidden_raises`).

**Underflow of doubles**

* `is_regular` is false for regular chains whose matrix power vanishes, because of small probabilities
  (`C151_small_probabilities`) or, for nine states, because of row sums slightly below one that the
  constructor accepts (`C151_row_sums`); `pi` raises a `ValueError` for an irreducible chain
  (`C152_pi_raises`), which cannot happen if the probabilities are not too small (`C152_pi_returns`).
* Transitions of probability below the precision are edges of the chain but are never taken by `simulate`
  (`C165_never_selected`).

**Exact comparisons of rounded numbers**

* `lump` and `lumping_partitions` compare rounded matrices with `np.array_equal`: in doubles a group of three
  equal states is rejected because three times a third of 7/8 is not 7/8, and states that differ by `2^-60` are
  lumped (`C161_rejected`, `C161_accepted`).
* `is_stochastically_monotone` compares rounded tail sums with `<` and is wrong in both directions
  (`C162_missed`, `C162_wrong`).
* In double arithmetic `mixing_time` may return a later step than in exact arithmetic, when a distance equals the
  cutoff (`C167_differs`).
* `sequence_probability` returns zero for possible sequences whose probability is below the range of doubles
  (`C168_possible_zero`); the sum of logarithms is not available to the caller.

## 5. Mutation testing

`seeded/LOG.jsonl` has 1324 entries. Each one edits one definition of the model in a scratch copy, so that a
claim becomes false, and lists the theorems that fail. Edits that no theorem noticed led to stronger
theorems (field `tightened`) or are marked with the reason why the claim stays true of the edit.

## 6. Not covered

* Rounding of floats other than in the programs of `Model/Rounded*.lean` (`C147`-`C152`, `C161`, `C162`, `C165`, `C167`-`C178`, `C180`, `C182`, `C183`, `C185`, `C186`, `C187`, `C188`, `C189`, `C190`); run time and memory.
* The drawing by matplotlib and the layout by Graphviz and pydot; `__repr__`.
* `scipy` sparse and `pandas` inputs (converted to arrays by the library before any check).
* The internals of the external routines in section 2.

## 7. Trusted base

* The Lean 4.33.0 kernel and Mathlib; axioms `propext`, `Classical.choice`, `Quot.sound` only.
* The transcription of the source into `Model/` (checked by reading; the code is not run).
* The contracts of section 2, which hold for the real routines up to rounding.
