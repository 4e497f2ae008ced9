import Verif.Model.RoundedReversible
import Verif.Model.Descriptors

/-!
# The tests of matrices with rounding

The sums of rows and columns and the comparisons in the validation of matrices (`/repo/pydtmc/validation.py`) and in two
properties of chains (`/repo/pydtmc/markov_chain.py`), in rounded arithmetic. The sums are those of an `Arith`, in any
order; the comparisons are rounded by `fl`.
-/

namespace Verif

variable {K : Type} [Field K] [LinearOrder K] [IsStrictOrderedRing K]

/-- The tests shared by the validators of transition and emission matrices (`validation.py:1076-1080`, `:259-263`), see
`checkStochastic`. -/
def checkStochasticF (fl : K → K) (F : Arith K) (rows : List (List (Flt K))) (m n : ℕ) :
    R (Matrix (Fin m) (Fin n) K) :=
  if ¬ rows.all (fun r => r.all Flt.inUnit) then throw .valueError
  else if ¬ ∀ i, iscloseF fl (F.sum (List.ofFn fun j => toMat rows m n i j)) 1 = true then throw .valueError
  else pure (toMat rows m n)

/-- `validate_transition_matrix` (`validation.py:1063-1082`), see `validateTransitionMatrix`. -/
def validateTransitionMatrixF (fl : K → K) (F : Arith K) (v : PyVal K) (size : Option ℕ) :
    R ((n : ℕ) × Matrix (Fin n) (Fin n) K) :=
  match extractNumeric v with
  | some (.mat rows) =>
    if rows.length < 2 ∨ ¬ hasWidth rows rows.length then throw .valueError
    else if size.any (fun n => rows.length != n) then throw .valueError
    else do
      let p ← checkStochasticF fl F rows rows.length rows.length
      pure ⟨rows.length, p⟩
  | some (.vec _) => throw .valueError
  | none => throw .typeError

/-- `validate_emission_matrix` (`validation.py:249-265`), see `validateEmissionMatrix`. -/
def validateEmissionMatrixF (fl : K → K) (F : Arith K) (v : PyVal K) (size : ℕ) :
    R ((k : ℕ) × Matrix (Fin size) (Fin k) K) :=
  match extractNumeric v with
  | some (.mat rows) =>
    let k := (rows.headD []).length
    if rows.length ≠ size ∨ k < 2 ∨ ¬ hasWidth rows k then throw .valueError
    else do
      let e ← checkStochasticF fl F rows size k
      pure ⟨k, e⟩
  | some (.vec _) => throw .valueError
  | none => throw .typeError

/-- `MarkovChain(p, states)` called by a user (`markov_chain.py:210-231`), see `mcInit`. -/
def mcInitF (fl : K → K) (F : Arith K) (p states : PyVal K) : R (MC K) := do
  let ⟨n, m⟩ ← validateTransitionMatrixF fl F p none
  let labels ← labelsOrDefault states n ""
  pure ⟨n, m, labels⟩

/-- `is_symmetric` (`markov_chain.py:762-770`). -/
def isSymmetricF (fl : K → K) (c : MC K) : Bool := decide (∀ i j, iscloseF fl (c.p i j) (c.p j i) = true)

/-- `is_doubly_stochastic` (`markov_chain.py:667-675`). -/
def isDoublyStochasticF (fl : K → K) (F : Arith K) (c : MC K) : Bool :=
  decide (∀ j, iscloseF fl (F.sum (List.ofFn fun i => c.p i j)) 1 = true)

end Verif
