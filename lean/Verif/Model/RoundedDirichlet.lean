import Verif.Model.Rounded
import Verif.Model.Random

/-!
# Dirichlet processes with rounding

`mc_dirichlet_process` (`/repo/pydtmc/generators.py`) in rounded arithmetic. Sums are taken from the left to the right, as
NumPy does for fewer than eight numbers.
-/

namespace Verif

variable {K : Type} [Field K] [LinearOrder K]

/-- The loop of `_gem_allocation` (`generators.py:799-805`), see `gemLoop`. -/
def gemLoopF (fl : K → K) : List K → K → List K
  | [], _ => []
  | d :: ds, allocated =>
    let weight := fl (fl (1 - allocated) * d)
    weight :: gemLoopF fl ds (fl (allocated + weight))

/-- `weights` before the division (`generators.py:807`), for all rows. -/
def gemWeightsF (fl : K → K) {n : ℕ} (draws : Fin n → Fin n → K) : Matrix (Fin n) (Fin n) K :=
  fun i j => (gemLoopF fl (List.ofFn (draws i)) 0).getD j 0

/-- The rows of `p` before the diagonal bias (`generators.py:808-816`), see `dirichletBase`. -/
def dirichletBaseF (fl : K → K) {n : ℕ} (draws : Fin n → Fin n → K) (shift : Bool) : Matrix (Fin n) (Fin n) K :=
  fun i j => normalizeRowsF (Arith.rounded fl) (gemWeightsF fl draws) i (if shift then j.rev else j)

/-- `mc_dirichlet_process` (`generators.py:795-825`), see `dirichletMatrix`. -/
def dirichletMatrixF (fl : K → K) {n : ℕ} (draws : Fin n → Fin n → K) (bias : Option (Fin n → K)) (shift : Bool) :
    Matrix (Fin n) (Fin n) K :=
  match bias with
  | none => dirichletBaseF fl draws shift
  | some b => normalizeRowsF (Arith.rounded fl) fun i j => fl (dirichletBaseF fl draws shift i j + if i = j then b i else 0)

end Verif
