import Mathlib.Algebra.Order.Field.Basic
import Mathlib.Algebra.Order.Ring.Abs
import Mathlib.Data.Matrix.Mul
import Mathlib.Algebra.BigOperators.Fin

/-!
# Numerical primitives used by the code

`float` is modelled by a linearly ordered field `K` (exact arithmetic; see `DESIGN.md`).
-/

namespace Verif

variable {K : Type} [Field K] [LinearOrder K]

/-- `np.isclose(a, b)` with the default tolerances `rtol = 1e-5`, `atol = 1e-8`
(NumPy semantics, used throughout `/repo/pydtmc`, e.g. `markov_chain.py:275`). The rounding of
binary64 arithmetic is not modelled. -/
def isclose (a b : K) : Bool := decide (|a - b| ≤ 1 / 10 ^ 8 + 1 / 10 ^ 5 * |b|)

/-- `np.allclose(a, b)` on vectors: the conjunction of `isclose` (NumPy semantics, used e.g. at
`validation.py:1079`). -/
def allcloseVec {n : ℕ} (a b : Fin n → K) : Bool := decide (∀ i, isclose (a i) (b i) = true)

end Verif
