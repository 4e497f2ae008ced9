import Verif.Spec.Chain
import Verif.Model.Construct

/-!
# Specification vocabulary: valid objects

Only the record types of the model (`MC`, `HMM`) are shared.
-/

namespace Verif

variable {K : Type} [Field K] [LinearOrder K] [IsStrictOrderedRing K]

/-- The label lists accepted for a chain of size `n`. -/
def ValidLabels (n : ℕ) (l : List String) : Prop :=
  l.length = n ∧ l.Nodup ∧ ∀ s ∈ l, nonBlank s = true

/-- A well-formed chain: at least two states, exactly stochastic, one distinct non-blank label
per state. -/
def MC.Valid (c : MC K) : Prop :=
  2 ≤ c.n ∧ IsStochastic c.p ∧ ValidLabels c.n c.states

/-- A well-formed hidden Markov model. -/
def HMM.Valid (m : HMM K) : Prop :=
  2 ≤ m.n ∧ 2 ≤ m.k ∧ IsStochastic m.p ∧ IsStochastic m.e ∧ ValidLabels m.n m.states ∧
    ValidLabels m.k m.symbols ∧ List.Disjoint m.states m.symbols

end Verif
