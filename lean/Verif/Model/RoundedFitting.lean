import Verif.Model.Fitting
import Verif.Model.Rounded

/-!
# Fitting chains to sequences with rounding

`mc_fit_sequence` of `/repo/pydtmc/fitting.py` with rounded operations. Subtraction is addition of the
negative number. Counts are integers, which are doubles.
-/

namespace Verif

variable {K : Type} [Field K] [LinearOrder K]

/-- The maximum likelihood branch (`fitting.py:319-328`); `eps` is the double `0.001`. -/
def fitMleF (F : Arith K) (eps : K) (n : ℕ) (seq : List ℕ) (smoothing : Bool) : Matrix (Fin n) (Fin n) K :=
  normalizeRowsF F <| fillNullRows fun i j =>
    if smoothing then F.add (countMatrix n seq i j : K) eps else (countMatrix n seq i j : K)

/-- The maximum a posteriori branch before the final normalisation (`fitting.py:294-317`). -/
def fitMapRawF (F : Arith K) (n : ℕ) (seq : List ℕ) (h : Matrix (Fin n) (Fin n) K) : Matrix (Fin n) (Fin n) K :=
  fun i j =>
    let rt := F.add ((∑ l, countMatrix n seq i l : ℕ) : K) (F.sum (List.ofFn fun l => h i l))
    if rt = n then F.div 1 n
    else F.div (F.add (F.add (countMatrix n seq i j : K) (h i j)) (-((1 : ℕ) : K))) (F.add rt (-(n : K)))

/-- The maximum a posteriori branch (`fitting.py:294-317`, `:327-328`). -/
def fitMapF (F : Arith K) (n : ℕ) (seq : List ℕ) (h : Matrix (Fin n) (Fin n) K) : Matrix (Fin n) (Fin n) K :=
  normalizeRowsF F (fillNullRows (fitMapRawF F n seq h))

end Verif
