import Verif.Model.Construct
import Mathlib.LinearAlgebra.Matrix.NonsingularInverse

/-!
# Linear algebra of NumPy

`numpy.linalg.inv` and `numpy.linalg.solve` in exact arithmetic: they fail with `LinAlgError`
exactly when the matrix is singular, otherwise the result is the inverse (the solution). Rounding
is not modelled; with floating point numbers an exactly singular matrix may go unnoticed.
-/

namespace Verif

variable {K : Type} [Field K] [LinearOrder K]

open Classical in
/-- `numpy.linalg.inv(a)`; `none` stands for `LinAlgError`. -/
noncomputable def npInv {n : ℕ} (A : Matrix (Fin n) (Fin n) K) : Option (Matrix (Fin n) (Fin n) K) :=
  if A.det = 0 then none else some A⁻¹

open Classical in
/-- `numpy.linalg.solve(a, b)`; `none` stands for `LinAlgError`. -/
noncomputable def npSolve {n : ℕ} (A : Matrix (Fin n) (Fin n) K) (b : Fin n → K) :
    Option (Fin n → K) :=
  if A.det = 0 then none else some (A⁻¹.mulVec b)

end Verif
