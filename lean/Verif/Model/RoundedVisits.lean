import Verif.Model.RoundedSolve
import Verif.Model.Visits

/-!
# Mean numbers of visits with an inexact solver
-/

namespace Verif

variable {K : Type} [Field K] [LinearOrder K] [IsStrictOrderedRing K]

/-- The matrix `a` of the system for column `j` (`measures.py:409-425`). Only `a[i, i] -= 1.0` rounds. -/
def visitMatrixF {n : ℕ} (fl : K → K) (P : Matrix (Fin n) (Fin n) K) (closed : Fin n → Bool) (j : Fin n) :
    Matrix (Fin n) (Fin n) K := fun i k =>
  if closed i then (if k = i then 1 else 0)
  else if k = i then fl ((if k = j then 0 else P i k) - 1)
  else if k = j then 0 else P i k

/-- The columns of `hp` (`measures.py:405-432`). -/
def visitColumnsF (fl : K → K) (solve : Solver K) (c : MC K) (sccs : List (List (Fin c.n))) : R (List (Fin c.n → K)) :=
  (List.finRange c.n).mapM fun j => orRaise (solve c.n (visitMatrixF fl c.p (closedState c.p sccs) j)
    (visitRhs c.p (communicationMatrix c sccs) (closedState c.p sccs) j))

/-- The entries of `mnv` (`measures.py:436-452`); the tolerances of `isclose` are not rounded. -/
def visitEntryF {n : ℕ} (fl : K → K) (cols : List (Fin n → K)) (i j : Fin n) : Flt K :=
  let hp := fun i j : Fin n => cols.getD j.val (fun _ => 0) i
  if isclose (hp i j) 0 then .fin 0
  else if isclose (hp j j) 1 then .inf false
  else .fin (fl (hp i j * fl (1 / fl (1 - hp j j))))

/-- `mc_mean_number_visits` (`measures.py:381-454`). -/
def meanNumberVisitsF (fl : K → K) (solve : Solver K) (c : MC K) (sccs : List (List (Fin c.n))) :
    R (Fin c.n → Fin c.n → Flt K) :=
  visitColumnsF fl solve c sccs >>= fun cols => pure (visitEntryF fl cols)

end Verif
