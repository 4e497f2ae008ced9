import Verif.Model.Rounded
import Verif.Model.HiddenGen

/-!
# Random models with rounding

The last step of `mc_random` and `hmm_random` (`/repo/pydtmc/generators.py`) in rounded arithmetic: the undefined entries
of a row are drawn and scaled such that the row sums to one. The sums are taken from the left to the right, as NumPy does
for fewer than eight numbers.
-/

namespace Verif

variable {K : Type} [Field K] [LinearOrder K]

/-- The sum of the drawn entries of a row, `s` (`generators.py:126`, `:973`); `fm` is the row of the mask after the zeros
were placed. -/
def drawnSumF (fl : K → K) {n : ℕ} (fm : Fin n → Option K) (value : Fin n → K) : K :=
  (Arith.rounded fl).sum (((List.finRange n).filter fun l => (fm l).isNone).map value)

/-- The sum of the other entries of a row, `si` (`generators.py:129`, `:976`). -/
def fixedSumF (fl : K → K) {n : ℕ} (fm : Fin n → Option K) : K :=
  (Arith.rounded fl).sum (((List.finRange n).filter fun l => ¬ (fm l).isNone).map fun l => (fm l).getD 0)

/-- A row after filling and scaling (`generators.py:119-130`, `:966-977`). -/
def rescaleRowF (fl : K → K) {n : ℕ} (fm : Fin n → Option K) (value : Fin n → K) : Fin n → K := fun j =>
  let s := drawnSumF fl fm value
  match fm j with
  | some x => x
  | none => if 0 < s then fl (value j * fl (fl (1 - fixedSumF fl fm) / s)) else value j

/-- `np.nansum` of a row of a mask (`validation.py:664`). -/
def nansumF (fl : K → K) {n : ℕ} (fm : Fin n → Option K) : K :=
  (Arith.rounded fl).sum (List.ofFn fun l => (fm l).getD 0)

/-- The matrix of `mc_random` and the two matrices of `hmm_random`, given the mask after the zeros were placed. -/
def rescaleF (fl : K → K) {m n : ℕ} (fm : GridMask K m n) (value : Fin m → Fin n → K) : Matrix (Fin m) (Fin n) K :=
  fun i => rescaleRowF fl (fm i) (value i)

end Verif
