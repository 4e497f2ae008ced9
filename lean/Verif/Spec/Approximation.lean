import Mathlib.Probability.Distributions.Gaussian.Real
import Mathlib.RingTheory.Polynomial.Hermite.Basic

/-!
# Specification: first-order autoregressive processes

The process `y' = (1 - ρ) α + ρ y + ε` with normal innovations of standard deviation `σ`. Nothing here
refers to the program.
-/

namespace Verif

open MeasureTheory ProbabilityTheory

/-- The normal distribution with mean `m` and standard deviation `s`. -/
noncomputable def normalLaw (m s : ℝ) : Measure ℝ := gaussianReal m (.mk (s ^ 2) (sq_nonneg s))

/-- The value of the process after one step. -/
def autoStep (α ρ : ℝ) (w : ℝ × ℝ) : ℝ := (1 - ρ) * α + ρ * w.1 + w.2

/-- The standard deviation of the stationary distribution. -/
noncomputable def autoDeviation (σ ρ : ℝ) : ℝ := σ / Real.sqrt (1 - ρ ^ 2)

/-- The joint distribution of a stationary value and of the next innovation. -/
noncomputable def autoLaw (α σ ρ : ℝ) : Measure (ℝ × ℝ) :=
  (normalLaw α (autoDeviation σ ρ)).prod (normalLaw 0 σ)

/-- The probability that the stationary process is in `s` and then in `t`. -/
noncomputable def autoMoves (α σ ρ : ℝ) (s t : Set ℝ) : ℝ :=
  (autoLaw α σ ρ).real {w | w.1 ∈ s ∧ autoStep α ρ w ∈ t}

/-- The interval from `a`, not included, to `b`; the bounds may be infinite. -/
def interval (a b : EReal) : Set ℝ := Real.toEReal ⁻¹' Set.Ioc a b

/-- The density of the normal distribution with mean `m` and standard deviation `s`. -/
noncomputable def normalDensity (m s x : ℝ) : ℝ := gaussianPDFReal m (.mk (s ^ 2) (sq_nonneg s)) x

/-- The Hermite polynomial of degree `n` with leading coefficient `2 ^ (n / 2)` and the weight
`exp (-x ^ 2)`. -/
noncomputable def hermiteValue (n : ℕ) (x : ℝ) : ℝ :=
  Polynomial.aeval (Real.sqrt 2 * x) (Polynomial.hermite n)

/-- Its derivative. -/
noncomputable def hermiteDerivative (n : ℕ) (x : ℝ) : ℝ :=
  Real.sqrt 2 * Polynomial.aeval (Real.sqrt 2 * x) (Polynomial.derivative (Polynomial.hermite n))

/-- A node and a weight of the Gauss-Hermite quadrature with `n` nodes, up to the sign of the node and
up to a step of Newton's method that is smaller than `tol`. -/
def NearNode (n : ℕ) (tol node weight : ℝ) : Prop :=
  ∃ y, hermiteDerivative n y ≠ 0 ∧ |hermiteValue n y / hermiteDerivative n y| < tol ∧
    |node| = |y - hermiteValue n y / hermiteDerivative n y| ∧
    weight = 2 * Real.sqrt Real.pi * n.factorial / hermiteDerivative n y ^ 2

end Verif
