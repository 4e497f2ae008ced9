import Verif.Spec.Chain
import Verif.Spec.Paths

/-!
# Specification vocabulary: plots
-/

namespace Verif

variable {K : Type*} [Field K] [LinearOrder K] [IsStrictOrderedRing K]

/-- The segments from `lo i` to `hi i` are stacked in their order, with the given gaps between them,
and reach from `a` to `b`. -/
def Stacked {n : ℕ} (gap : K) (lo hi : Fin n → K) (a b : K) : Prop :=
  (∀ i : Fin n, (i : ℕ) = 0 → lo i = a) ∧ (∀ i : Fin n, (i : ℕ) + 1 = n → hi i = b) ∧
    ∀ i j : Fin n, (j : ℕ) = i + 1 → lo j = hi i + gap

/-- The entry `(i, j)` is the share of the moves from `i` to `j` among all moves of the path. -/
def ShowsMoves {n : ℕ} (w : List (Fin n)) (m : Fin n → Fin n → K) : Prop :=
  ∀ i j, m i j = (countMoves i j w : K) / ((w.length : K) - 1)

/-- The entry `i` is the share of the time that the path spends at `i`. -/
def ShowsShares {n : ℕ} (w : List (Fin n)) (v : Fin n → K) : Prop :=
  ∀ i, v i = (w.count i : K) / w.length

/-- The columns are the elements of the path: the row of the element has a one, the others zeros. -/
def ShowsPath {n : ℕ} (w : List (Fin n)) (m : Fin n → List K) : Prop :=
  ∀ i, m i = w.map fun s => if s = i then 1 else 0

end Verif
