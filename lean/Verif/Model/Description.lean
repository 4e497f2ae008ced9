import Verif.Model.Measures
import Verif.Model.Descriptors

/-!
# Descriptions

Models the methods `__str__` of chains and hidden Markov models.
-/

namespace Verif

variable {K : Type} [Field K] [LinearOrder K]

/-- `"YES" if b else "NO"`. -/
def yesNo (b : Bool) : String := if b then "YES" else "NO"

/-- The line about periods (`markov_chain.py:259`). -/
def aperiodicLine (aperiodic : Bool) (period : ℕ) : String :=
  if aperiodic then "YES" else "NO (" ++ toString period ++ ")"

/-- The lines of `MarkovChain.__str__` (`markov_chain.py:251-266`). -/
def chainLines (size rank classes recurrent transient period : ℕ)
    (ergodic aperiodic irreducible absorbing monotone regular reversible symmetric : Bool) : List String :=
  ["",
   "DISCRETE-TIME MARKOV CHAIN",
   " SIZE:           " ++ toString size,
   " RANK:           " ++ toString rank,
   " CLASSES:        " ++ toString classes,
   "  > RECURRENT:   " ++ toString recurrent,
   "  > TRANSIENT:   " ++ toString transient,
   " ERGODIC:        " ++ yesNo ergodic,
   "  > APERIODIC:   " ++ aperiodicLine aperiodic period,
   "  > IRREDUCIBLE: " ++ yesNo irreducible,
   " ABSORBING:      " ++ yesNo absorbing,
   " MONOTONE:       " ++ yesNo monotone,
   " REGULAR:        " ++ yesNo regular,
   " REVERSIBLE:     " ++ yesNo reversible,
   " SYMMETRIC:      " ++ yesNo symmetric,
   ""]

/-- `MarkovChain.__str__` (`markov_chain.py:249-270`). `rank` is the result of
`numpy.linalg.matrix_rank` (`markov_chain.py:896`). -/
def chainStr (c : MC K) (nx : Nx c.n) (rank : ℕ) : R String :=
  isReversible c nx.sccs >>= fun rev =>
  pure ("\n".intercalate (chainLines c.n rank (communicatingClasses c nx.sccs).length
    (recurrentClasses c nx.sccs).length (transientClasses c nx.sccs).length (period c nx)
    (isErgodic c nx) (isAperiodic c nx) (isIrreducible c nx.sccs) (isAbsorbing c) (isMonotone c)
    (isRegular c) rev (isSymmetric c)))

/-- The lines of `HiddenMarkovModel.__str__` (`hidden_markov_model.py:192-198`). -/
def hiddenLines (n k : ℕ) (ergodic regular : Bool) : List String :=
  ["",
   "HIDDEN MARKOV MODEL",
   " STATES:  " ++ toString n,
   " SYMBOLS: " ++ toString k,
   " ERGODIC: " ++ yesNo ergodic,
   " REGULAR: " ++ yesNo regular,
   ""]

/-- `HiddenMarkovModel.__str__` (`hidden_markov_model.py:190-202`). -/
def hiddenStr (m : HMM K) (nx : Nx m.n) (rank : ℕ) : String :=
  "\n".intercalate (hiddenLines m.n m.k (hmmIsErgodic m nx) (hmmIsRegular m rank))

end Verif
