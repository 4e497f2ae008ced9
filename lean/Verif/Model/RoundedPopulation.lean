import Verif.Model.Generators
import Verif.Model.Rounded

/-!
# Population genetics with rounding

`MarkovChain.population_genetics_model` with rounded operations. Integers up to 500 are doubles, and sums are taken from
the left to the right. The binomial probabilities that SciPy computes are a parameter.
-/

namespace Verif

variable {K : Type} [Field K] [LinearOrder K]

/-- `ri` (`generators.py:900-904`). -/
def moranShareF (fl : K → K) (i : ℕ) (s : K) : K := fl (fl (1 - s) * i)

/-- `pm1` (`generators.py:896-906`). -/
def moranDownF (fl : K → K) (n i : ℕ) (s v : K) : K :=
  let ri := moranShareF fl i s
  let nmi := (n : K) - i
  fl (fl ((i : K) / n) * fl (fl (fl (ri * v) + fl (nmi * fl (1 - v))) / fl (ri + nmi)))

/-- `pp1` (`generators.py:895-907`). -/
def moranUpF (fl : K → K) (n i : ℕ) (s u v : K) : K :=
  let ri := moranShareF fl i s
  let nmi := (n : K) - i
  fl (fl (nmi / n) * fl (fl (fl (ri * fl (1 - u)) + fl (nmi * v)) / fl (ri + nmi)))

/-- The Moran branch of `mc_population_genetics_model` before normalisation (`generators.py:889-911`). -/
def moranRawF (fl : K → K) (n : ℕ) (s u v : K) : Matrix (Fin (n + 1)) (Fin (n + 1)) K := fun i j =>
  if (i : ℕ) = 0 then (if (j : ℕ) = 0 then 1 else 0)
  else if (i : ℕ) = n then (if (j : ℕ) = n then 1 else 0)
  else if (j : ℕ) = i + 1 then moranUpF fl n i s u v
  else if (j : ℕ) = i then fl (fl (1 - moranDownF fl n i s v) - moranUpF fl n i s u v)
  else if (j : ℕ) = i - 1 then moranDownF fl n i s v
  else 0

/-- `pm` (`generators.py:919-921`). -/
def wfMutatedF (fl : K → K) (n i : ℕ) (u v : K) : K :=
  let k := fl ((i : K) / n)
  fl (fl (k * fl (1 - u)) + fl (fl (1 - k) * v))

/-- `ps` (`generators.py:922`). -/
def wfProbF (fl : K → K) (n i : ℕ) (s u v : K) : K :=
  let pm := wfMutatedF fl n i u v
  let w := fl (pm * fl (1 + s))
  min (fl (w / fl (fl (w - pm) + 1))) 1

/-- The Wright-Fisher branch before normalisation (`generators.py:891-896`, `:913-924`); `pmf n p j` is the computed value
of `np.exp(scipy.stats.binom.logpmf(j, n, p))`. -/
def wrightFisherRawF (fl : K → K) (pmf : ℕ → K → ℕ → K) (n : ℕ) (s u v : K) : Matrix (Fin (n + 1)) (Fin (n + 1)) K :=
  fun i j =>
  if (i : ℕ) = 0 then (if (j : ℕ) = 0 then 1 else 0)
  else if (i : ℕ) = n then (if (j : ℕ) = n then 1 else 0)
  else pmf n (wfProbF fl n i s u v) j

/-- `MarkovChain.population_genetics_model` (`markov_chain.py:2606-2646`, `generators.py:887-930`), see
`populationGenetics`. -/
def populationGeneticsF (fl : K → K) (pmf : ℕ → K → ℕ → K) (model n s u v states : PyVal K) : R (MC K) :=
  validateEnumerator model ["moran", "wright-fisher"] >>= fun model =>
  validateInteger n (some (2, false)) (some (500, false)) >>= fun z =>
  validateFloat s (some (-1, false)) none >>= fun s =>
  validateFloat u (some (0, false)) (some (1, false)) >>= fun u =>
  validateFloat v (some (0, false)) (some (1, false)) >>= fun v =>
  labelsOrDefault states (z.toNat + 1) "" >>= fun labels =>
  if model = "wright-fisher" ∧ fl (4 * (z.toNat : K) * max u v) > 1 then throw .valueError
  else if model = "moran" then
    if ∃ i ∈ List.range z.toNat, 1 ≤ i ∧ fl (moranShareF fl i s + ((z.toNat : K) - i)) = 0 then throw .valueError
    else pure ⟨z.toNat + 1, normalizeRowsF (Arith.rounded fl) (moranRawF fl z.toNat s u v), labels⟩
  else pure ⟨z.toNat + 1, normalizeRowsF (Arith.rounded fl) (wrightFisherRawF fl pmf z.toNat s u v), labels⟩

end Verif
