import Verif.Model.Generators
import Verif.Model.Rounded

/-!
# Generators of chains with rounding

`MarkovChain.gamblers_ruin`, `MarkovChain.urn_model` and `MarkovChain.to_bounded_chain` with rounded
operations. Integers are doubles. The square `x**2.0` is a parameter.
-/

namespace Verif

variable {K : Type} [Field K] [LinearOrder K]

/-- `mc_gamblers_ruin` (`generators.py:828-842`). -/
def gamblersRuinMatrixF (fl : K → K) (n : ℕ) (w : K) : Matrix (Fin n) (Fin n) K := fun i j =>
  if (i : ℕ) = 0 then (if (j : ℕ) = 0 then 1 else 0)
  else if (i : ℕ) = n - 1 then (if (j : ℕ) = n - 1 then 1 else 0)
  else if (j : ℕ) = i - 1 then fl (1 - w)
  else if (j : ℕ) = i + 1 then w
  else 0

/-- `MarkovChain.gamblers_ruin` (`markov_chain.py:2548-2577`). -/
def gamblersRuinF (fl : K → K) (size w states : PyVal K) : R (MC K) :=
  validateInteger size (some (3, false)) none >>= fun z =>
  validateFloat w (some (0, true)) (some (1, true)) >>= fun w =>
  labelsOrDefault states z.toNat "" >>= fun labels =>
  pure ⟨z.toNat, gamblersRuinMatrixF fl z.toNat w, labels⟩

/-- `i / dn` (`generators.py:1037-1039`, `:1054-1055`). -/
def urnShareF (fl : K → K) (n i : ℕ) : K := fl ((i : K) / ((2 * n : ℕ) : K))

/-- The Bernoulli-Laplace branch of `mc_urn_model` (`generators.py:1026-1043`); `sq` is `x**2.0`. -/
def bernoulliLaplaceMatrixF (fl sq : K → K) (n : ℕ) : Matrix (Fin (2 * n + 1)) (Fin (2 * n + 1)) K := fun i j =>
  let dn := 2 * n
  if (i : ℕ) = 0 then (if (j : ℕ) = 1 then 1 else 0)
  else if (i : ℕ) = dn then (if (j : ℕ) = dn - 1 then 1 else 0)
  else if (j : ℕ) = i + 1 then sq (fl (1 - urnShareF fl n i))
  else if (j : ℕ) = i then fl (fl (2 * urnShareF fl n i) * fl (1 - urnShareF fl n i))
  else if (j : ℕ) = i - 1 then sq (urnShareF fl n i)
  else 0

/-- The Ehrenfest branch of `mc_urn_model` (`generators.py:1045-1059`). -/
def ehrenfestMatrixF (fl : K → K) (n : ℕ) : Matrix (Fin (2 * n + 1)) (Fin (2 * n + 1)) K := fun i j =>
  let dn := 2 * n
  if (i : ℕ) = 0 then (if (j : ℕ) = 1 then 1 else 0)
  else if (i : ℕ) = dn then (if (j : ℕ) = dn - 1 then 1 else 0)
  else if (j : ℕ) = i + 1 then fl (1 - urnShareF fl n i)
  else if (j : ℕ) = i - 1 then urnShareF fl n i
  else 0

/-- `MarkovChain.urn_model` (`markov_chain.py:2742-2771`, `generators.py:1018-1061`). -/
def urnModelF (fl sq : K → K) (model n states : PyVal K) : R (MC K) :=
  validateEnumerator model ["bernoulli-laplace", "ehrenfest"] >>= fun model =>
  validateInteger n (some (1, false)) none >>= fun z =>
  labelsOrDefault states (2 * z.toNat + 1) "" >>= fun labels =>
  pure ⟨2 * z.toNat + 1,
    if model = "bernoulli-laplace" then bernoulliLaplaceMatrixF fl sq z.toNat
    else ehrenfestMatrixF fl z.toNat, labels⟩

/-- `MarkovChain.to_bounded_chain` (`markov_chain.py:1906-1931`, `generators.py:572-601`). The
result `none` stands for a returned chain that contains NaN entries. -/
def toBoundedF (fl : K → K) (c : MC K) (cond : PyVal K) : R (Option (MC K)) :=
  validateBoundaryCondition cond >>= fun b =>
  match b with
  | .number (.fin x) => pure (some ⟨c.n, boundedMatrix c.p (fl (1 - x)) x x (fl (1 - x)), c.states⟩)
  | .number _ => pure none
  | .absorbing => pure (some ⟨c.n, boundedMatrix c.p 1 0 1 0, c.states⟩)
  | .reflecting => pure (some ⟨c.n, boundedMatrix c.p 0 1 0 1, c.states⟩)

end Verif
