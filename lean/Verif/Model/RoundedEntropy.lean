import Verif.Model.Entropy
import Verif.Model.RoundedReversible

/-!
# Entropy rate with rounding

The property `entropy_rate` of `/repo/pydtmc/markov_chain.py` with rounded operations and a rounded
logarithm `lg`.
-/

namespace Verif

variable {K : Type} [Field K] [LinearOrder K] [IsStrictOrderedRing K]

/-- The double loop (`markov_chain.py:500-506`). -/
def entropySumF (fl lg : K → K) {n : ℕ} (P : Matrix (Fin n) (Fin n) K) (x : Fin n → K) : K :=
  ((List.finRange n).flatMap fun i => (List.finRange n).map fun j => (i, j)).foldl
    (fun h q => if P q.1 q.2 > 0 then fl (h + fl (fl (x q.1 * P q.1 q.2) * lg (P q.1 q.2))) else h) 0

/-- `entropy_rate` (`markov_chain.py:488-510`). -/
def entropyRateF (F : Arith K) (fl lg : K → K) (c : MC K) (sccs : List (List (Fin c.n))) : R (Option K) :=
  piF F c sccs >>= fun xs =>
  if xs.length > 1 then pure none
  else orRaise xs.head? >>= fun x =>
    let h := entropySumF fl lg c.p x
    pure (some (if iscloseF fl h 0 then h else -h))

/-- The part of `entropy_rate_normalized` for an entropy rate that is not `None`
(`markov_chain.py:524-529`); `te` is the computed logarithm of the last sorted eigenvalue of the adjacency
matrix. -/
def normalizeRateF (fl : K → K) (h te : K) : K :=
  if iscloseF fl h 0 then 0 else min 1 (max 0 (fl (h / te)))

end Verif
