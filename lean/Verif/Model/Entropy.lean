import Verif.Model.Stationary
import Verif.Model.Spectral
import Mathlib.Analysis.SpecialFunctions.Log.Basic

/-!
# Model: entropy rate and topological entropy

Over the real numbers, because of the logarithm.
-/

namespace Verif

/-- The double loop (`markov_chain.py:500-506`). -/
noncomputable def entropySum (c : MC ℝ) (x : Fin c.n → ℝ) : ℝ :=
  ∑ i, ∑ j, if c.p i j > 0 then x i * c.p i j * Real.log (c.p i j) else 0

/-- `entropy_rate` (`markov_chain.py:488-510`). -/
noncomputable def entropyRate (c : MC ℝ) (sccs : List (List (Fin c.n))) : R (Option ℝ) :=
  pi c sccs >>= fun xs =>
  if xs.length > 1 then pure none
  else match xs with
    | x :: _ =>
      let h := entropySum c x
      pure (some (if isclose h 0 then h else -h))
    | [] => throw .valueError

/-- `adjacency_matrix` (`markov_chain.py:403-411`). -/
def adjacencyMatrix {K : Type} [Field K] [LinearOrder K] (c : MC K) :
    Matrix (Fin c.n) (Fin c.n) ℕ := fun i j => if c.p i j > 0 then 1 else 0

/-- The contract of the eigenvalues of the adjacency matrix, on which `eigenvalues_sorted` calls
`numpy.linalg.eigvals` (`markov_chain.py:527`, `markov_chain.py:977`). -/
def AdjacencyEigvals (c : MC ℝ) (ev : List ℂ) : Prop :=
  EigvalsSound ((adjacencyMatrix c).map fun k => (k : ℝ)) ev

/-- The part of `entropy_rate_normalized` for an entropy rate that is not `None`
(`markov_chain.py:524-529`). -/
noncomputable def normalizeRate (h : ℝ) (ev : List ℂ) : R (Option ℝ) :=
  if isclose h 0 then pure (some 0)
  else orRaise (eigenvaluesSorted ev).getLast? >>= fun e =>
    pure (some (min 1 (max 0 (h / Real.log e))))

/-- `entropy_rate_normalized` (`markov_chain.py:513-531`); `ev` are the eigenvalues of the adjacency
matrix. -/
noncomputable def entropyRateNormalized (c : MC ℝ) (sccs : List (List (Fin c.n))) (ev : List ℂ) :
    R (Option ℝ) :=
  entropyRate c sccs >>= fun h =>
  match h with
  | none => pure none
  | some h => normalizeRate h ev

/-- `topological_entropy` (`markov_chain.py:971-980`); `ev` are the eigenvalues of the adjacency
matrix. -/
noncomputable def topologicalEntropy (ev : List ℂ) : R ℝ :=
  orRaise (eigenvaluesSorted ev).getLast? >>= fun e => pure (Real.log e)

end Verif
