import Verif.Model.Random
import Verif.Model.Rounded

/-!
# The Tauchen approximation with rounding
-/

namespace Verif

variable {K : Type} [Field K]

/-- `(z + step) / sigma` with `z = x[j] - rx` (`generators.py:545`, `:549-550`). -/
def tauchenHighF (fl : K → K) (x : ℕ → K) (step rx sigma : K) (j : ℕ) : K := fl (fl (fl (x j - rx) + step) / sigma)

/-- `(z - step) / sigma` with `z = x[j] - rx` (`generators.py:546`, `:549-550`). -/
def tauchenLowF (fl : K → K) (x : ℕ → K) (step rx sigma : K) (j : ℕ) : K := fl (fl (fl (x j - rx) - step) / sigma)

/-- The matrix of the Tauchen branch (`generators.py:537-550`), every operation rounded by `fl`, see `tauchenMatrix`. The
nodes `x` returned by `np.linspace` and `step` are the computed ones, `cdf` is the computed `scipy.stats.norm.cdf`. -/
def tauchenMatrixF (fl cdf : K → K) (size : ℕ) (sigma rho : K) (x : ℕ → K) (step : K) : Matrix (Fin size) (Fin size) K :=
  fun i j =>
    let rx := fl (rho * x i)
    if (j : ℕ) = 0 then cdf (tauchenHighF fl x step rx sigma 0)
    else if (j : ℕ) = size - 1 then fl (1 - cdf (tauchenLowF fl x step rx sigma (size - 1)))
    else fl (cdf (tauchenHighF fl x step rx sigma j) - cdf (tauchenLowF fl x step rx sigma j))

end Verif
