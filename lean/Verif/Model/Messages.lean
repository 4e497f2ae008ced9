import Mathlib.Data.List.TakeWhile

/-!
# Messages of validation errors

Models `create_validation_error` (`utilities.py:192-202`), which finds the name of the rejected argument
in the text of the source line that raised the exception, and lists these lines.
-/

namespace Verif

/-- `str.strip`. -/
def stripSpaces (l : List Char) : List Char :=
  ((l.dropWhile Char.isWhitespace).reverse.dropWhile Char.isWhitespace).reverse

/-- The name of the argument (`utilities.py:194-197`): the text before the first `=` without the spaces
around it, cut at the first comma. `line` is `''.join(trace[0][4])`, the line of the public function
that was running. -/
def argumentName (line : List Char) : List Char :=
  (stripSpaces (line.takeWhile (· != '='))).takeWhile (· != ',')

/-- `str.replace('@arg@', name)`. -/
def fillName (name : List Char) : List Char → List Char
  | '@' :: 'a' :: 'r' :: 'g' :: '@' :: l => name ++ fillName name l
  | c :: l => c :: fillName name l
  | [] => []

/-- `create_validation_error` (`utilities.py:192-202`): the message of the exception. -/
def validationMessage (message line : List Char) : List Char :=
  fillName (argumentName line) message

/-- A line that validates a parameter: the number of the line, the names on the left of `=`, and the
parameter that is validated on the right. -/
structure Site where
  line : ℕ
  targets : List String
  parameter : String

/-- The lines of `assessments.py` that validate a parameter other than a seed, from `assessments.py:77` on. -/
def assessmentSites : List Site :=
  [⟨77, ["possible_states"], "possible_states"⟩, ⟨78, ["sequence"], "sequence"⟩,
   ⟨79, ["significance"], "significance"⟩, ⟨130, ["possible_states"], "possible_states"⟩,
   ⟨131, ["sequences"], "sequences"⟩, ⟨132, ["significance"], "significance"⟩,
   ⟨244, ["possible_states"], "possible_states"⟩, ⟨245, ["sequence"], "sequence"⟩,
   ⟨246, ["significance"], "significance"⟩, ⟨318, ["possible_states"], "possible_states"⟩,
   ⟨319, ["sequence"], "sequence"⟩, ⟨320, ["blocks"], "blocks"⟩,
   ⟨321, ["significance"], "significance"⟩, ⟨377, ["mc"], "mc"⟩, ⟨378, ["sequence"], "sequence"⟩,
   ⟨379, ["significance"], "significance"⟩]

/-- The lines of `hidden_markov_model.py` that validate a parameter other than a seed, from
`hidden_markov_model.py:156` on. -/
def hiddenSites : List Site :=
  [⟨156, ["p"], "p"⟩, ⟨157, ["e"], "e"⟩, ⟨158, ["states"], "states"⟩, ⟨159, ["symbols"], "symbols"⟩,
   ⟨308, ["symbols"], "symbols"⟩, ⟨309, ["initial_status"], "initial_status"⟩,
   ⟨310, ["use_scaling"], "use_scaling"⟩, ⟨331, ["symbol"], "symbol"⟩, ⟨332, ["state"], "state"⟩,
   ⟨360, ["target"], "target"⟩, ⟨361, ["initial_state"], "initial_state"⟩,
   ⟨362, ["output_index"], "output_index"⟩, ⟨401, ["prediction_type"], "prediction_type"⟩,
   ⟨402, ["symbols"], "symbols"⟩, ⟨403, ["initial_status"], "initial_status"⟩,
   ⟨436, ["states"], "states"⟩, ⟨437, ["symbols"], "symbols"⟩, ⟨465, ["steps"], "steps"⟩,
   ⟨466, ["initial_state"], "initial_state"⟩, ⟨467, ["final_state"], "final_state"⟩,
   ⟨468, ["final_symbol"], "final_symbol"⟩, ⟨469, ["output_indices"], "output_indices"⟩,
   ⟨516, ["file_path", "file_extension"], "file_path"⟩, ⟨566, ["state_target"], "state_target"⟩,
   ⟨567, ["state_origin"], "state_origin"⟩, ⟨592, ["possible_states"], "possible_states"⟩,
   ⟨593, ["possible_symbols"], "possible_symbols"⟩, ⟨594, ["sequence_states"], "sequence_states"⟩,
   ⟨595, ["sequence_symbols"], "sequence_symbols"⟩, ⟨634, ["fitting_type"], "fitting_type"⟩,
   ⟨635, ["possible_states"], "possible_states"⟩, ⟨636, ["possible_symbols"], "possible_symbols"⟩,
   ⟨637, ["p_guess"], "p_guess"⟩, ⟨638, ["e_guess"], "e_guess"⟩, ⟨639, ["symbols"], "symbols"⟩,
   ⟨640, ["initial_status"], "initial_status"⟩, ⟨672, ["d"], "d"⟩,
   ⟨756, ["file_path", "file_extension"], "file_path"⟩, ⟨813, ["graph"], "graph"⟩, ⟨881, ["mp"], "mp"⟩,
   ⟨882, ["me"], "me"⟩, ⟨883, ["states"], "states"⟩, ⟨884, ["symbols"], "symbols"⟩, ⟨942, ["n"], "n"⟩,
   ⟨943, ["k"], "k"⟩, ⟨946, ["states"], "states"⟩, ⟨948, ["p_zeros"], "p_zeros"⟩,
   ⟨949, ["p_mask"], "p_mask"⟩, ⟨952, ["symbols"], "symbols"⟩, ⟨954, ["e_zeros"], "e_zeros"⟩,
   ⟨955, ["e_mask"], "e_mask"⟩]

/-- The lines of `markov_chain.py` that validate a parameter other than a seed, from `markov_chain.py:221` on. -/
def chainSites : List Site :=
  [⟨221, ["p"], "p"⟩, ⟨222, ["states"], "states"⟩, ⟨1040, ["method"], "method"⟩, ⟨1041, ["s"], "s"⟩,
   ⟨1080, ["state1"], "state1"⟩, ⟨1081, ["state2"], "state2"⟩,
   ⟨1110, ["initial_distribution"], "initial_distribution"⟩, ⟨1111, ["weighted"], "weighted"⟩,
   ⟨1158, ["committor_type"], "committor_type"⟩, ⟨1159, ["states1"], "states1"⟩,
   ⟨1160, ["states2"], "states2"⟩, ⟨1190, ["state"], "state"⟩, ⟨1216, ["steps"], "steps"⟩,
   ⟨1217, ["rewards"], "rewards"⟩, ⟨1243, ["steps"], "steps"⟩,
   ⟨1244, ["initial_distribution"], "initial_distribution"⟩, ⟨1271, ["steps"], "steps"⟩,
   ⟨1272, ["initial_state"], "initial_state"⟩,
   ⟨1275, ["first_passage_states"], "first_passage_states"⟩,
   ⟨1304, ["initial_state"], "initial_state"⟩,
   ⟨1305, ["first_passage_states"], "first_passage_states"⟩, ⟨1306, ["rewards"], "rewards"⟩,
   ⟨1307, ["steps"], "steps"⟩, ⟨1344, ["targets"], "targets"⟩, ⟨1372, ["targets"], "targets"⟩,
   ⟨1392, ["state"], "state"⟩, ⟨1413, ["state_target"], "state_target"⟩,
   ⟨1414, ["state_origin"], "state_origin"⟩, ⟨1434, ["state"], "state"⟩, ⟨1454, ["state"], "state"⟩,
   ⟨1474, ["state"], "state"⟩, ⟨1496, ["partitions"], "partitions"⟩, ⟨1548, ["origins"], "origins"⟩,
   ⟨1549, ["targets"], "targets"⟩, ⟨1576, ["targets"], "targets"⟩, ⟨1633, ["other"], "other"⟩,
   ⟨1634, ["gamma"], "gamma"⟩, ⟨1669, ["initial_distribution"], "initial_distribution"⟩,
   ⟨1670, ["jump"], "jump"⟩, ⟨1671, ["cutoff_type"], "cutoff_type"⟩,
   ⟨1696, ["initial_state"], "initial_state"⟩, ⟨1697, ["output_index"], "output_index"⟩,
   ⟨1726, ["steps"], "steps"⟩, ⟨1727, ["initial_state"], "initial_state"⟩,
   ⟨1728, ["output_indices"], "output_indices"⟩, ⟨1753, ["steps"], "steps"⟩,
   ⟨1754, ["initial_status"], "initial_status"⟩, ⟨1755, ["output_last"], "output_last"⟩,
   ⟨1779, ["state"], "state"⟩, ⟨1799, ["sequence"], "sequence"⟩, ⟨1825, ["steps"], "steps"⟩,
   ⟨1826, ["initial_state"], "initial_state"⟩, ⟨1827, ["final_state"], "final_state"⟩,
   ⟨1828, ["output_indices"], "output_indices"⟩, ⟨1860, ["sequence1"], "sequence1"⟩,
   ⟨1863, ["sequence2"], "sequence2"⟩, ⟨1865, ["time_points"], "time_points"⟩,
   ⟨1894, ["sequence"], "sequence"⟩, ⟨1895, ["initial_distribution"], "initial_distribution"⟩,
   ⟨1896, ["time_points"], "time_points"⟩, ⟨1923, ["boundary_condition"], "boundary_condition"⟩,
   ⟨1974, ["file_path", "file_extension"], "file_path"⟩,
   ⟨2016, ["inertial_weights"], "inertial_weights"⟩, ⟨2053, ["order"], "order"⟩,
   ⟨2080, ["states"], "states"⟩, ⟨2106, ["state_target"], "state_target"⟩,
   ⟨2107, ["state_origin"], "state_origin"⟩, ⟨2145, ["size"], "size"⟩,
   ⟨2146, ["approximation_type"], "approximation_type"⟩, ⟨2147, ["alpha"], "alpha"⟩,
   ⟨2148, ["sigma"], "sigma"⟩, ⟨2149, ["rho"], "rho"⟩, ⟨2152, ["states"], "states"⟩,
   ⟨2155, ["k"], "k"⟩, ⟨2157, ["k"], "k"⟩, ⟨2189, ["p"], "p"⟩, ⟨2190, ["q"], "q"⟩,
   ⟨2193, ["states"], "states"⟩, ⟨2232, ["size"], "size"⟩,
   ⟨2233, ["diffusion_factor"], "diffusion_factor"⟩,
   ⟨2234, ["diagonal_bias_factor"], "diagonal_bias_factor"⟩,
   ⟨2235, ["shift_concentration"], "shift_concentration"⟩, ⟨2238, ["states"], "states"⟩,
   ⟨2284, ["quadrature_type"], "quadrature_type"⟩, ⟨2285, ["f"], "f"⟩,
   ⟨2286, ["possible_states"], "possible_states"⟩,
   ⟨2287, ["quadrature_interval"], "quadrature_interval"⟩,
   ⟨2324, ["possible_states"], "possible_states"⟩, ⟨2325, ["sequence"], "sequence"⟩,
   ⟨2326, ["fitting_type"], "fitting_type"⟩, ⟨2330, ["fitting_param"], "fitting_param"⟩,
   ⟨2332, ["fitting_param"], "fitting_param"⟩, ⟨2363, ["d"], "d"⟩,
   ⟨2431, ["file_path", "file_extension"], "file_path"⟩, ⟨2476, ["graph"], "graph"⟩,
   ⟨2522, ["m"], "m"⟩, ⟨2523, ["states"], "states"⟩, ⟨2561, ["size"], "size"⟩, ⟨2562, ["w"], "w"⟩,
   ⟨2565, ["states"], "states"⟩, ⟨2593, ["size"], "size"⟩, ⟨2594, ["states"], "states"⟩,
   ⟨2624, ["model"], "model"⟩, ⟨2625, ["n"], "n"⟩, ⟨2626, ["s"], "s"⟩, ⟨2627, ["u"], "u"⟩,
   ⟨2628, ["v"], "v"⟩, ⟨2631, ["states"], "states"⟩, ⟨2671, ["size"], "size"⟩,
   ⟨2674, ["states"], "states"⟩, ⟨2676, ["zeros"], "zeros"⟩, ⟨2677, ["mask"], "mask"⟩,
   ⟨2724, ["size"], "size"⟩, ⟨2725, ["f"], "f"⟩, ⟨2726, ["states"], "states"⟩,
   ⟨2757, ["model"], "model"⟩, ⟨2758, ["n"], "n"⟩, ⟨2761, ["states"], "states"⟩]

/-- The lines of `plotting.py` that validate a parameter other than a seed, from `plotting.py:190` on. -/
def plotSites : List Site :=
  [⟨190, ["models"], "models"⟩, ⟨191, ["underlying_matrices"], "underlying_matrices"⟩,
   ⟨192, ["names"], "names"⟩, ⟨193, ["dpi"], "dpi"⟩, ⟨252, ["model"], "model"⟩, ⟨253, ["dpi"], "dpi"⟩,
   ⟨464, ["model"], "model"⟩, ⟨465, ["steps"], "steps"⟩, ⟨466, ["interval"], "interval"⟩,
   ⟨467, ["initial_status"], "initial_status"⟩, ⟨468, ["palette"], "palette"⟩, ⟨469, ["dpi"], "dpi"⟩,
   ⟨965, ["model"], "model"⟩, ⟨966, ["nodes_color"], "nodes_color"⟩,
   ⟨967, ["nodes_shape"], "nodes_shape"⟩, ⟨968, ["edges_label"], "edges_label"⟩,
   ⟨969, ["force_standard"], "force_standard"⟩, ⟨970, ["dpi"], "dpi"⟩, ⟨1022, ["model"], "model"⟩,
   ⟨1023, ["redistributions"], "redistributions"⟩, ⟨1024, ["initial_status"], "initial_status"⟩,
   ⟨1025, ["plot_type"], "plot_type"⟩, ⟨1026, ["dpi"], "dpi"⟩, ⟨1228, ["model"], "model"⟩,
   ⟨1229, ["steps"], "steps"⟩, ⟨1230, ["initial_state"], "initial_state"⟩,
   ⟨1231, ["plot_type"], "plot_type"⟩, ⟨1232, ["dpi"], "dpi"⟩, ⟨1498, ["hmm"], "hmm"⟩,
   ⟨1499, ["steps"], "steps"⟩, ⟨1500, ["initial_state"], "initial_state"⟩,
   ⟨1501, ["force_standard"], "force_standard"⟩, ⟨1502, ["dpi"], "dpi"⟩]

/-- The lines that create a generator from a seed: `hidden_markov_model.py:359`, `:464`, `:941`,
`markov_chain.py:1695`, `:1824`, `:2231`, `:2670`, `:2723`. -/
def seedSites : List Site :=
  [⟨359, ["rng"], "seed"⟩, ⟨464, ["rng"], "seed"⟩, ⟨941, ["rng"], "seed"⟩, ⟨1695, ["rng"], "seed"⟩,
   ⟨1824, ["rng"], "seed"⟩, ⟨2231, ["rng"], "seed"⟩, ⟨2670, ["rng"], "seed"⟩, ⟨2723, ["rng"], "seed"⟩]

/-- All lines that validate a parameter other than a seed. -/
def validationSites : List Site := assessmentSites ++ hiddenSites ++ chainSites ++ plotSites

/-- The text of such a line: `a = …` or `a, b = …`. -/
def Site.text (s : Site) (indent tail : List Char) : List Char :=
  indent ++ ([',', ' '].intercalate (s.targets.map String.toList) ++ (' ' :: '=' :: ' ' :: tail))

end Verif
