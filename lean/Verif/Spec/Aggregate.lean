import Verif.Spec.Chain

/-!
# Aggregation of states
-/

namespace Verif

variable {K : Type*} [Field K] [LinearOrder K] [IsStrictOrderedRing K]
variable {ι κ : Type*} [Fintype ι] [Fintype κ] [DecidableEq κ]

/-- The probability of the group `a` under the distribution `x`, if `f` assigns the states to groups. -/
def groupMass (x : ι → K) (f : ι → κ) (a : κ) : K := ∑ i, if f i = a then x i else 0

/-- The probability of a transition into the group `b` from the group `a`, if the chain is started
with the distribution `x`. -/
def aggregated (P : ι → ι → K) (x : ι → K) (f : ι → κ) (a b : κ) : K :=
  (∑ i, ∑ j, if f i = a ∧ f j = b then x i * P i j else 0) / groupMass x f a

/-- The chain that moves between the groups like the aggregation and chooses the state within the
group in equilibrium. -/
def lifted (P : ι → ι → K) (x : ι → K) (f : ι → κ) (i j : ι) : K :=
  aggregated P x f (f i) (f j) * (x j / groupMass x f (f j))

end Verif
