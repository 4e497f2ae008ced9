import Verif.Spec.Chain
import Mathlib.Data.Fintype.Pi

/-!
# Counting possible paths
-/

namespace Verif

variable {K : Type*} [Field K] [LinearOrder K] [IsStrictOrderedRing K]
variable {ι : Type*} [Fintype ι] [DecidableEq ι]

/-- The possible paths of `t` transitions. -/
def walks (P : ι → ι → K) (t : ℕ) : Finset (Fin (t + 1) → ι) :=
  Finset.univ.filter fun w => ∀ k : Fin t, Edge P (w k.castSucc) (w k.succ)

/-- The pairs of different states with a transition from the first to the second. -/
def links (P : ι → ι → K) : Finset (ι × ι) :=
  Finset.univ.filter fun e => e.1 ≠ e.2 ∧ Edge P e.1 e.2

end Verif
