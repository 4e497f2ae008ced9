import Verif.Model.Generators
import Verif.Model.Rounded

/-!
# The Rouwenhorst approximation with rounding
-/

namespace Verif

variable {K : Type} [Field K] [LinearOrder K]

/-- `_rouwenhorst_matrix` (`generators.py:395-416`) for `size = n + 2`, every operation rounded by `fl`, see `rouwenhorst`.
Outside of their blocks the four terms are zero. -/
def rouwenhorstF (fl : K → K) (z : K) : (n : ℕ) → Matrix (Fin (n + 2)) (Fin (n + 2)) K
  | 0 => !![z, fl (1 - z); fl (1 - z), z]
  | n + 1 => fun i j =>
    let inner : ℕ → ℕ → K := fun a b =>
      if h : a < n + 2 ∧ b < n + 2 then rouwenhorstF fl z n ⟨a, h.1⟩ ⟨b, h.2⟩ else 0
    let t1 := fl (z * inner i j)
    let t2 := if 1 ≤ (j : ℕ) then fl (fl (1 - z) * inner i (j - 1)) else 0
    let t3 := if 1 ≤ (i : ℕ) then fl (fl (1 - z) * inner (i - 1) j) else 0
    let t4 := if 1 ≤ (i : ℕ) ∧ 1 ≤ (j : ℕ) then fl (z * inner (i - 1) (j - 1)) else 0
    let s := fl (fl (fl (t1 + t2) + t3) + t4)
    if 1 ≤ (i : ℕ) ∧ (i : ℕ) < n + 2 then fl (s / 2) else s

/-- The Rouwenhorst case of `MarkovChain.approximation` (`markov_chain.py:2118-2172`, `generators.py:436-439`), see
`approximationRouwenhorst`. -/
def approximationRouwenhorstF (fl : K → K) (size alpha sigma rho states : PyVal K) : R (MC K) :=
  validateInteger size (some (2, false)) none >>= fun n =>
  validateFloat alpha none none >>= fun _ =>
  validateFloat sigma (some (0, true)) none >>= fun _ =>
  validateFloat rho (some (-1, false)) (some (1, false)) >>= fun rho =>
  labelsOrDefault states n.toNat "" >>= fun labels =>
  pure ⟨(n.toNat - 2) + 2, rouwenhorstF fl (fl (fl (1 + rho) / 2)) (n.toNat - 2), labels⟩

end Verif
