import Verif.Model.Entropy
import Verif.Model.Periods

/-!
# Model: properties and methods that describe a model

The smaller properties of `/repo/pydtmc/markov_chain.py` and `/repo/pydtmc/hidden_markov_model.py`.
-/

namespace Verif

variable {K : Type} [Field K] [LinearOrder K] [IsStrictOrderedRing K]

/-- `is_doubly_stochastic` (`markov_chain.py:667-675`). -/
def isDoublyStochastic (c : MC K) : Bool := decide (∀ j, isclose (∑ i, c.p i j) 1 = true)

/-- The adjacency matrix without its diagonal (`markov_chain.py:467-468`). -/
def offDiagonal (c : MC K) : Matrix (Fin c.n) (Fin c.n) ℕ := fun i j =>
  if i = j then 0 else adjacencyMatrix c i j

/-- `density` (`markov_chain.py:461-474`). -/
def density (c : MC K) : K :=
  ((∑ i, ∑ j, offDiagonal c i j : ℕ) : K) / ((c.n : K) * ((c.n : K) - 1))

/-- The loop of `incidence_matrix` (`markov_chain.py:587-593`) over the remaining columns, where
`us[index]` is `index // n` and `vs[index]` is `index % n` (`markov_chain.py:584-585`). -/
def incidenceLoop (n : ℕ) : List ℕ → (ℕ → ℕ → ℕ) → ℕ → ℕ → ℕ
  | [], im => im
  | k :: ks, im =>
    incidenceLoop n ks
      (if k / n = k % n then im
      else fun a b => if (a = k / n ∨ a = k % n) ∧ b = k then 1 else im a b)

/-- `incidence_matrix` (`markov_chain.py:574-595`). -/
def incidenceMatrix (c : MC K) : Matrix (Fin c.n) (Fin (c.n ^ 2)) ℕ := fun i k =>
  incidenceLoop c.n (List.range (c.n ^ 2)) (fun _ _ => 0) i.val k.val

/-- `__cyclic_states_indices` (`markov_chain.py:307-311`). -/
def cyclicStatesIdx (c : MC K) (nx : Nx c.n) : List (Fin c.n) := sortIdx (cyclicIdx c nx).flatten

/-- `cyclic_states` (`markov_chain.py:450-458`). -/
def cyclicStates (c : MC K) (nx : Nx c.n) : List String := (cyclicStatesIdx c nx).map c.label

/-- `is_cyclic_state` (`markov_chain.py:1423-1441`). -/
def isCyclicState (c : MC K) (nx : Nx c.n) (state : PyVal K) : R Bool :=
  validateLabel state c.states >>= fun s =>
  pure (decide (s ∈ (cyclicStatesIdx c nx).map Fin.val))

/-- An element of a matrix for indices that were validated. -/
def elementAt {n k : ℕ} (m : Matrix (Fin n) (Fin k) K) (i j : ℕ) : K :=
  if h : i < n ∧ j < k then m ⟨i, h.1⟩ ⟨j, h.2⟩ else 0

/-- `transition_probability` (`markov_chain.py:2094-2114`). -/
def transitionProbability (c : MC K) (target origin : PyVal K) : R K :=
  validateLabel target c.states >>= fun t =>
  validateLabel origin c.states >>= fun o =>
  pure (elementAt c.p o t)

/-- `transition_probability` (`hidden_markov_model.py:554-574`). -/
def hmmTransitionProbability (m : HMM K) (target origin : PyVal K) : R K :=
  validateLabel target m.states >>= fun t =>
  validateLabel origin m.states >>= fun o =>
  pure (elementAt m.p o t)

/-- `emission_probability` (`hidden_markov_model.py:319-339`). -/
def emissionProbability (m : HMM K) (symbol state : PyVal K) : R K :=
  validateLabel symbol m.symbols >>= fun y =>
  validateLabel state m.states >>= fun s =>
  pure (elementAt m.e s y)

/-- The chain of the hidden states that `is_ergodic` constructs (`hidden_markov_model.py:220`); a valid
model passes its validation. -/
def HMM.chain (m : HMM K) : MC K := ⟨m.n, m.p, m.states⟩

/-- `is_ergodic` (`hidden_markov_model.py:214-223`). -/
def hmmIsErgodic (m : HMM K) (nx : Nx m.n) : Bool :=
  isErgodic m.chain nx && decide (∀ i a, decide (0 < m.e i a) = true)

/-- `is_regular` (`hidden_markov_model.py:226-234`); `rank` is the result of
`numpy.linalg.matrix_rank` on the emission matrix. -/
def hmmIsRegular (m : HMM K) (rank : ℕ) : Bool := decide (rank = m.k)

end Verif
