import Verif.Spec.Chain
import Mathlib.Algebra.Order.Archimedean.Real.Basic
import Mathlib.LinearAlgebra.Matrix.Notation

/-!
# Distance to the stationary distribution
-/

namespace Verif

/-- The distance to `x` after `t` steps for the worst initial state: the sum of the absolute
differences. -/
noncomputable def worstDistance {n : ℕ} (P : Matrix (Fin n) (Fin n) ℝ) (x : Fin n → ℝ) (t : ℕ) : ℝ :=
  ⨆ i, ∑ j, |(P ^ t) i j - x j|

end Verif
