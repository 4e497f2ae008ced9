import Verif.Model.RoundedSolve

/-!
# Mean first passage times between all states with an inexact inverse
-/

namespace Verif

variable {K : Type} [Field K] [LinearOrder K] [IsStrictOrderedRing K]

/-- `i - p + a` (`measures.py:357-359`) with rounding; the rows of `a` are equal to `x`. -/
def groupMatrixF {n : ℕ} (fl : K → K) (P : Matrix (Fin n) (Fin n) K) (x : Fin n → K) : Matrix (Fin n) (Fin n) K :=
  fun i j => fl (eyeMinusF fl P i j + x j)

/-- `mc_mean_first_passage_times_to` without targets (`measures.py:348-365`). Off the diagonal `0 - z[i, j]` is exact, and
the products with diagonal matrices have one term that is not zero, so that `1.0 * z[j, j]` is exact as well. -/
def mfptAllF (fl : K → K) (F : Arith K) (inv : Inverter K) (c : MC K) (nx : Nx c.n) :
    R (Option (Fin c.n → Fin c.n → K)) :=
  if isErgodic c nx then
    piF F c nx.sccs >>= fun l =>
    orRaise l.head? >>= fun x =>
    orRaise (inv c.n (groupMatrixF fl c.p x)) >>= fun z =>
    pure (some fun i j => if i = j then 0 else fl (fl (z j j - z i j) * fl (1 / x j)))
  else pure none

/-- `mc_mean_first_passage_times_between` (`measures.py:331-345`). `numpy.sum` and `numpy.dot` are parameters. -/
def mfptBetweenF (fl : K → K) (F : Arith K) (solve : Solver K) (sum : List K → K) (dot : DotProduct K) (c : MC K)
    (nx : Nx c.n) (origins targets : List (Fin c.n)) : R (Option K) :=
  if isErgodic c nx then
    piF F c nx.sccs >>= fun l =>
    orRaise l.head? >>= fun x =>
    mfptToF fl solve c nx targets >>= fun t =>
    orRaise t >>= fun t =>
    pure (some (dot origins.length (fun k => fl (x (origins.get k) / sum (origins.map x))) fun k => t (origins.get k)))
  else pure none

end Verif
