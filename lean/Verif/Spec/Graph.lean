import Verif.Spec.Chain
import Mathlib.Data.List.Basic

/-!
# Specification vocabulary: communicating classes

Nothing in this file refers to the code of `/repo`.
-/

namespace Verif

variable {K : Type*} [Field K] [LinearOrder K] [IsStrictOrderedRing K]
variable {ι : Type*} [Fintype ι]

/-- `l` lists the communicating classes of the chain: every state is in some listed class, the
classes are pairwise disjoint lists without repetitions, and two states are in the same class
exactly when each can reach the other. The order of the classes and of the states in them is
arbitrary. -/
structure IsClasses (P : ι → ι → K) (l : List (List ι)) : Prop where
  cover : ∀ i, ∃ C ∈ l, i ∈ C
  nodup : ∀ C ∈ l, C.Nodup
  ne_nil : ∀ C ∈ l, C ≠ []
  disjoint : l.Pairwise List.Disjoint
  mem_iff : ∀ C ∈ l, ∀ i ∈ C, ∀ j, j ∈ C ↔ Communicate P i j

/-- The state `i` is transient when it is not recurrent. -/
def TransientState (P : ι → ι → K) (i : ι) : Prop := ¬ RecurrentState P i

end Verif
