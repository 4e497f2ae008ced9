import Verif.Model.RoundedPassage
import Verif.Model.Visits

/-!
# Sensitivity of the stationary distribution with inexact least squares
-/

namespace Verif

variable {K : Type} [Field K] [LinearOrder K] [IsStrictOrderedRing K]

/-- The matrix `a` (`measures.py:506-507`) with rounding. -/
def sensitivityMatrixF {n : ℕ} (fl : K → K) (P : Matrix (Fin n) (Fin n) K) (i : Fin n) (k : Fin (n + 1)) : K :=
  if h : k.val < n then fl (P i ⟨k.val, h⟩ - (if i.val = k.val then 1 else 0)) else 1

/-- `mc_sensitivity` (`measures.py:496-517`). Products with the entries of `lev`, which are ones, do not round. -/
def mcSensitivityF (fl : K → K) (F : Arith K) (dot : DotProduct K) (c : MC K) (sccs : List (List (Fin c.n)))
    (lstsq : Lstsq K c.n) (state : Fin c.n) : R (Option (Fin c.n → Fin c.n → K)) :=
  if isIrreducible c sccs = false then pure none
  else piF F c sccs >>= fun l =>
    orRaise l.head? >>= fun x =>
    let phi := fun j : Fin c.n => lstsq (sensitivityMatrixF fl c.p) (fun i => if i = state then 1 else 0) j.castSucc
    pure (some fun i j => fl (-fl (x i * phi j) + fl (dot c.n phi x * (x i * 1))))

end Verif
