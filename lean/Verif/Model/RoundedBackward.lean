import Verif.Model.RoundedPassage

/-!
# Backward committors and the Kemeny constant with inexact solvers
-/

namespace Verif

variable {K : Type} [Field K] [LinearOrder K] [IsStrictOrderedRing K]

/-- `transpose(pi[:, newaxis] * (p - eye(size)))` (`measures.py:141`) with rounding. -/
def backwardMatrixF {n : ℕ} (fl : K → K) (P : Matrix (Fin n) (Fin n) K) (x : Fin n → K) : Matrix (Fin n) (Fin n) K :=
  fun i j => fl (x j * fl (P j i - if j = i then 1 else 0))

/-- `mc_committor_probabilities` for the backward direction (`measures.py:133-160`). -/
def mcBackwardF (fl : K → K) (F : Arith K) (solve : Solver K) (c : MC K) (nx : Nx c.n) (A B : List (Fin c.n)) :
    R (Option (Fin c.n → K)) :=
  if isErgodic c nx then
    piF F c nx.sccs >>= fun l =>
    orRaise l.head? >>= fun x =>
    orRaise (solve c.n (unitRows (unitRows (backwardMatrixF fl c.p x) A) B) (oneOn A)) >>= fun q =>
    pure (some fun i => if isclose (q i) 0 then 0 else q i)
  else pure none

/-- `kemeny_constant` (`markov_chain.py:773-789`). The sum in `numpy.trace` is a parameter; `fm[0].item()` for a matrix
with one entry is the sum of its diagonal. -/
def kemenyF (fl : K → K) (inv : Inverter K) (sum : List K → K) (c : MC K) (sccs : List (List (Fin c.n))) : R (Option K) :=
  fundamentalMatrixF fl inv c sccs >>= fun m => pure (m.map fun m => sum (List.ofFn fun a => m a a))

end Verif
