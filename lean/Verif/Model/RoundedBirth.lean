import Verif.Model.Generators
import Verif.Model.RoundedReversible

/-!
# Birth-death chains with rounding

`MarkovChain.birth_death` and `mc_birth_death` of `/repo/pydtmc/generators.py` with rounded operations. The
sum of the three diagonals adds zeros only, which is exact.
-/

namespace Verif

variable {K : Type} [Field K] [LinearOrder K] [IsStrictOrderedRing K]

/-- `1.0 - q - p` (`generators.py:559`). -/
def stayF (fl : K → K) {n : ℕ} (p q : Fin n → K) (i : Fin n) : K := fl (fl (1 - q i) - p i)

/-- The sum of three diagonals (`generators.py:559-561`). -/
def birthDeathRawF (fl : K → K) {n : ℕ} (p q : Fin n → K) : Matrix (Fin n) (Fin n) K := fun i j =>
  if (j : ℕ) = i then stayF fl p q i
  else if (j : ℕ) = i + 1 then p i
  else if (j : ℕ) + 1 = i then q i
  else 0

/-- `p[np.isclose(p, 0.0)] = 0.0` (`generators.py:562`). -/
def zeroSmallF (fl : K → K) {m n : ℕ} (M : Matrix (Fin m) (Fin n) K) : Matrix (Fin m) (Fin n) K :=
  fun i j => if iscloseF fl (M i j) 0 then 0 else M i j

/-- `mc_birth_death` (`generators.py:557-569`). -/
def birthDeathMatrixF (fl : K → K) (F : Arith K) {n : ℕ} (p q : Fin n → K) : Matrix (Fin n) (Fin n) K :=
  normalizeRowsF F (fillNullRows (zeroSmallF fl (birthDeathRawF fl p q)))

/-- `MarkovChain.birth_death` (`markov_chain.py:2176-2211`). The comparisons of the validation of the vectors
do not round, except for the tolerance itself, which is taken as the number `1e-8`. -/
def birthDeathF (fl : K → K) (F : Arith K) (p q states : PyVal K) : R (MC K) :=
  validateVector p .creation false none >>= fun p =>
  validateVector q .annihilation false none >>= fun q =>
  labelsOrDefault states p.length "" >>= fun labels =>
  if p.length ≠ q.length then throw .valueError
  else if ¬ ∀ i : Fin p.length, fl (listVec q p.length i + listVec p p.length i) ≤ 1 then
    throw .valueError
  else pure ⟨p.length, birthDeathMatrixF fl F (listVec p p.length) (listVec q p.length), labels⟩

end Verif
