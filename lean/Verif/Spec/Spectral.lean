import Verif.Spec.Chain
import Mathlib.Analysis.Complex.Basic

/-!
# Eigenvalues
-/

namespace Verif

variable {ι : Type*} [Fintype ι]

/-- `z` is an eigenvalue of `P`. -/
def IsEigenvalue (P : ι → ι → ℝ) (z : ℂ) : Prop :=
  ∃ v : ι → ℂ, v ≠ 0 ∧ ∀ i, ∑ j, (P i j : ℂ) * v j = z * v i

/-- `s` is the largest modulus of the eigenvalues other than one. -/
def IsSecondModulus (P : ι → ι → ℝ) (s : ℝ) : Prop :=
  (∃ z, IsEigenvalue P z ∧ z ≠ 1 ∧ ‖z‖ = s) ∧ ∀ z, IsEigenvalue P z → z ≠ 1 → ‖z‖ ≤ s

end Verif
