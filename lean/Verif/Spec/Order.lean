import Verif.Spec.Chain

/-!
# Specification vocabulary: stochastic order
-/

namespace Verif

variable {K : Type*} [Field K] [LinearOrder K] {n : ℕ}

/-- `d` is stochastically smaller than `e`: `e` gives at least as much mass to every upper set. -/
def StochLe (d e : Fin n → K) : Prop := ∀ m, ∑ j with m ≤ j, d j ≤ ∑ j with m ≤ j, e j

end Verif
