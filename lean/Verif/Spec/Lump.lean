import Verif.Spec.Chain

/-!
# Specification vocabulary: lumpability
-/

namespace Verif

variable {K : Type*} [Field K] [LinearOrder K] {ι : Type*} [Fintype ι] [DecidableEq ι]

/-- Probability of moving from `i` into the group `B`. -/
def moveInto (P : ι → ι → K) (i : ι) (B : List ι) : K := ∑ x with x ∈ B, P i x

/-- Strong lumpability: the states of a group have the same probability of moving into each
group. -/
def Lumpable (P : ι → ι → K) (g : List (List ι)) : Prop :=
  ∀ A ∈ g, ∀ i ∈ A, ∀ j ∈ A, ∀ B ∈ g, moveInto P i B = moveInto P j B

/-- A division of the states into non-empty groups. -/
def IsPartition (g : List (List ι)) : Prop :=
  (∀ A ∈ g, A ≠ []) ∧ g.flatten.Nodup ∧ ∀ i, i ∈ g.flatten

end Verif
