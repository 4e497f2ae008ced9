import Verif.Model.Validation

/-!
# Constructors

Models `MarkovChain.__init__` (`/repo/pydtmc/markov_chain.py:210-231`) and
`HiddenMarkovModel.__init__` (`/repo/pydtmc/hidden_markov_model.py:145-172`).
-/

namespace Verif

variable {K : Type} [Field K] [LinearOrder K]

/-- The observable content of a `MarkovChain`: size, transition matrix, labels
(`markov_chain.py:227-231`). -/
structure MC (K : Type) where
  n : ℕ
  p : Matrix (Fin n) (Fin n) K
  states : List String

/-- The observable content of a `HiddenMarkovModel` (`hidden_markov_model.py:167-172`). -/
structure HMM (K : Type) where
  n : ℕ
  k : ℕ
  p : Matrix (Fin n) (Fin n) K
  e : Matrix (Fin n) (Fin k) K
  states : List String
  symbols : List String

/-- `get_instance_generators(MarkovChain)` (`utilities.py:244-253`): the names of the public
methods marked `instance_generator=True` in `markov_chain.py` (lines 1019-2741), including their
aliases, which inherit the mark through `functools.wraps` (`decorators.py:136-142`). -/
def mcGenerators : List String :=
  ["aggregate", "closest_reversible", "lump", "merge_with", "to_bounded_chain", "to_bounded",
   "to_canonical_form", "to_canonical", "to_lazy_chain", "to_lazy", "to_nth_order", "to_nth",
   "to_subchain", "to_sub", "approximation", "birth_death", "dirichlet_process", "fit_function",
   "fit_sequence", "from_dictionary", "from_file", "from_graph", "from_matrix", "gamblers_ruin",
   "identity", "population_genetics_model", "random", "random_distribution", "urn_model"]

/-- `get_instance_generators(HiddenMarkovModel)` (`hidden_markov_model.py` lines 415-917). -/
def hmmGenerators : List String :=
  ["restrict", "estimate", "fit", "from_dictionary", "from_file", "from_graph", "from_matrices",
   "random"]

/-- `_create_labels(n) if states is None else _validate_labels_input(states, n)`
(`markov_chain.py:222`). -/
def labelsOrDefault (v : PyVal K) (n : ℕ) (pre : String) : R (List String) :=
  match v with
  | .none => pure (createLabels n pre)
  | v => validateLabelsInput v (some n)

/-- `MarkovChain(p, states)` (`markov_chain.py:210-231`). `caller` is the name of the function
that contains the call (`get_caller`, `utilities.py:227-231`). When it is one of the generator
names, nothing is validated: the arguments are stored as they are. In that branch the model only
represents square arrays of floats with a list of labels not longer than the matrix; anything else
is reported as an error (in the code it fails in `build_mc_graph` or later). -/
def mcInit (caller : String) (p states : PyVal K) : R (MC K) :=
  if caller ∉ mcGenerators then do
    let ⟨n, m⟩ ← validateTransitionMatrix p none
    let labels ← labelsOrDefault states n ""
    pure ⟨n, m, labels⟩
  else
    match p, states with
    | .array (.mat rows), .list l =>
      if hasWidth rows rows.length ∧ l.length ≤ rows.length then
        pure ⟨rows.length, toMat rows rows.length rows.length, l.map PyVal.asStr⟩
      else throw .typeError
    | _, _ => throw .typeError

/-- `HiddenMarkovModel(p, e, states, symbols)` (`hidden_markov_model.py:145-172`); the same remark
on the generator branch applies. -/
def hmmInit (caller : String) (p e states symbols : PyVal K) : R (HMM K) :=
  if caller ∉ hmmGenerators then do
    let ⟨n, mp⟩ ← validateTransitionMatrix p none
    let ⟨k, me⟩ ← validateEmissionMatrix e n
    let ls ← labelsOrDefault states n "P"
    let lsy ← labelsOrDefault symbols k "E"
    if ls.any (fun s => s ∈ lsy) then throw .valueError
    pure ⟨n, k, mp, me, ls, lsy⟩
  else
    match p, e, states, symbols with
    | .array (.mat rp), .array (.mat re), .list ls, .list lsy =>
      if hasWidth rp rp.length ∧ re.length = rp.length ∧ hasWidth re (re.headD []).length ∧
          ls.length ≤ rp.length ∧ lsy.length ≤ (re.headD []).length then
        if (ls.map PyVal.asStr).any (fun s => s ∈ lsy.map PyVal.asStr) then throw .valueError
        else pure ⟨rp.length, (re.headD []).length, toMat rp rp.length rp.length,
          toMat re rp.length (re.headD []).length, ls.map PyVal.asStr, lsy.map PyVal.asStr⟩
      else throw .typeError
    | _, _, _, _ => throw .typeError

end Verif
