import Verif.Model.Validation2
import Mathlib.Data.Nat.Choose.Basic
import Mathlib.LinearAlgebra.Matrix.Notation

/-!
# Generators with a closed form

Models functions of `/repo/pydtmc/generators.py` and the `MarkovChain` methods that call them.
Every method ends with `MarkovChain(p, states)` executed inside a generator, so the constructor
stores `p` and `states` as they are (`markov_chain.py:217`, see `mcInit` and `mcInit_bypass`); the
models below build the `MC` record directly. Python's negative indices are written out; loops over
distinct rows are written as functions of the row.
-/

namespace Verif

variable {K : Type} [Field K] [LinearOrder K]

/-! ## Helpers shared by several generators -/

/-- `p / np.sum(p, axis=1, keepdims=True)`. -/
def normalizeRows {m n : ℕ} (M : Matrix (Fin m) (Fin n) K) : Matrix (Fin m) (Fin n) K :=
  fun i j => M i j / ∑ l, M i l

/-- `p[np.where(~p.any(axis=1)), :] = np.ones(...)`: null rows are replaced by ones. -/
def fillNullRows {m n : ℕ} (M : Matrix (Fin m) (Fin n) K) : Matrix (Fin m) (Fin n) K :=
  fun i j => if ∀ l, M i l = 0 then 1 else M i j

/-- `p[np.isclose(p, 0.0)] = 0.0`. -/
def zeroSmall {m n : ℕ} (M : Matrix (Fin m) (Fin n) K) : Matrix (Fin m) (Fin n) K :=
  fun i j => if isclose (M i j) 0 then 0 else M i j

/-- The row loop of `from_matrix` and `from_graph` (`markov_chain.py:2533-2540`, `:2494-2501`):
rows whose sum is close to zero become uniform, the others are divided by their sum. -/
def normalizeOrUniform {n : ℕ} (M : Matrix (Fin n) (Fin n) K) : Matrix (Fin n) (Fin n) K :=
  fun i j => if isclose (∑ l, M i l) 0 then 1 / (n : K) else M i j / ∑ l, M i l

/-! ## from_matrix, from_graph, identity -/

/-- `MarkovChain.from_matrix` (`markov_chain.py:2510-2544`). -/
def fromMatrix (m states : PyVal K) : R (MC K) :=
  validateMatrix m >>= fun ⟨n, M⟩ =>
  labelsOrDefault states n "" >>= fun labels =>
  pure ⟨n, normalizeOrUniform M, labels⟩

/-- A directed graph as seen through `networkx`: node list and weighted edges. In a `DiGraph` both
are duplicate-free; a multigraph is converted first (`validation.py:355-356`). Edge weights are
finite here; an infinite weight passes the test `> 0.0` of the code and produces NaN rows. -/
structure Graph (K : Type) where
  nodes : List String
  edges : List (String × String × K)

/-- `validate_graph` without layers (`validation.py:348-408`). -/
def validateGraph (g : Graph K) : R Unit :=
  if g.nodes.length < 2 then throw .valueError
  else if ¬ g.nodes.all nonBlank then throw .valueError
  else if ¬ g.edges.all (fun e => decide (0 < e.2.2)) then throw .valueError
  else pure ()

/-- `p[i, j] = float(edge[2])` for one edge (`markov_chain.py:2487-2490`). -/
def setEdge {n : ℕ} (nodes : List String) (M : Matrix (Fin n) (Fin n) K)
    (e : String × String × K) : Matrix (Fin n) (Fin n) K := fun i j =>
  if (i : ℕ) = nodes.idxOf e.1 ∧ (j : ℕ) = nodes.idxOf e.2.1 then e.2.2 else M i j

/-- The matrix filled edge by edge (`markov_chain.py:2481-2490`). -/
def weightMatrix (g : Graph K) : Matrix (Fin g.nodes.length) (Fin g.nodes.length) K :=
  g.edges.foldl (setEdge g.nodes) 0

/-- `MarkovChain.from_graph` (`markov_chain.py:2466-2505`). -/
def fromGraph (g : Graph K) : R (MC K) :=
  validateGraph g >>= fun _ =>
  pure ⟨g.nodes.length, normalizeOrUniform (weightMatrix g), g.nodes⟩

/-- `MarkovChain.identity` (`markov_chain.py:2581-2602`). -/
def identityChain (size states : PyVal K) : R (MC K) :=
  validateInteger size (some (2, false)) none >>= fun z =>
  labelsOrDefault states z.toNat "" >>= fun labels =>
  pure ⟨z.toNat, 1, labels⟩

/-! ## Gambler's ruin -/

/-- `mc_gamblers_ruin` (`generators.py:828-842`). -/
def gamblersRuinMatrix (n : ℕ) (w : K) : Matrix (Fin n) (Fin n) K := fun i j =>
  if (i : ℕ) = 0 then (if (j : ℕ) = 0 then 1 else 0)
  else if (i : ℕ) = n - 1 then (if (j : ℕ) = n - 1 then 1 else 0)
  else if (j : ℕ) = i - 1 then 1 - w
  else if (j : ℕ) = i + 1 then w
  else 0

/-- `MarkovChain.gamblers_ruin` (`markov_chain.py:2548-2577`). -/
def gamblersRuin (size w states : PyVal K) : R (MC K) :=
  validateInteger size (some (3, false)) none >>= fun z =>
  validateFloat w (some (0, true)) (some (1, true)) >>= fun w =>
  labelsOrDefault states z.toNat "" >>= fun labels =>
  pure ⟨z.toNat, gamblersRuinMatrix z.toNat w, labels⟩

/-! ## Urn models -/

/-- The Bernoulli-Laplace branch of `mc_urn_model` (`generators.py:1026-1043`). -/
def bernoulliLaplaceMatrix (n : ℕ) : Matrix (Fin (2 * n + 1)) (Fin (2 * n + 1)) K := fun i j =>
  let dn := 2 * n
  if (i : ℕ) = 0 then (if (j : ℕ) = 1 then 1 else 0)
  else if (i : ℕ) = dn then (if (j : ℕ) = dn - 1 then 1 else 0)
  else if (j : ℕ) = i + 1 then (1 - (i : ℕ) / (dn : K)) ^ 2
  else if (j : ℕ) = i then 2 * ((i : ℕ) / (dn : K)) * (1 - (i : ℕ) / (dn : K))
  else if (j : ℕ) = i - 1 then ((i : ℕ) / (dn : K)) ^ 2
  else 0

/-- The Ehrenfest branch of `mc_urn_model` (`generators.py:1045-1059`). -/
def ehrenfestMatrix (n : ℕ) : Matrix (Fin (2 * n + 1)) (Fin (2 * n + 1)) K := fun i j =>
  let dn := 2 * n
  if (i : ℕ) = 0 then (if (j : ℕ) = 1 then 1 else 0)
  else if (i : ℕ) = dn then (if (j : ℕ) = dn - 1 then 1 else 0)
  else if (j : ℕ) = i + 1 then 1 - (i : ℕ) / (dn : K)
  else if (j : ℕ) = i - 1 then (i : ℕ) / (dn : K)
  else 0

/-- `MarkovChain.urn_model` (`markov_chain.py:2742-2771`, `generators.py:1018-1061`). -/
def urnModel (model n states : PyVal K) : R (MC K) :=
  validateEnumerator model ["bernoulli-laplace", "ehrenfest"] >>= fun model =>
  validateInteger n (some (1, false)) none >>= fun z =>
  labelsOrDefault states (2 * z.toNat + 1) "" >>= fun labels =>
  pure ⟨2 * z.toNat + 1,
    if model = "bernoulli-laplace" then bernoulliLaplaceMatrix z.toNat
    else ehrenfestMatrix z.toNat, labels⟩

/-! ## Population genetics -/

/-- `pm1` (`generators.py:900-906`). -/
def moranDown (n i : ℕ) (s v : K) : K :=
  let ri := (1 - s) * i
  let nmi := (n : K) - i
  ((i : K) / n) * ((ri * v + nmi * (1 - v)) / (ri + nmi))

/-- `pp1` (`generators.py:900-907`). -/
def moranUp (n i : ℕ) (s u v : K) : K :=
  let ri := (1 - s) * i
  let nmi := (n : K) - i
  (nmi / n) * ((ri * (1 - u) + nmi * v) / (ri + nmi))

/-- The Moran branch of `mc_population_genetics_model` before normalisation
(`generators.py:889-911`). -/
def moranRaw (n : ℕ) (s u v : K) : Matrix (Fin (n + 1)) (Fin (n + 1)) K := fun i j =>
  if (i : ℕ) = 0 then (if (j : ℕ) = 0 then 1 else 0)
  else if (i : ℕ) = n then (if (j : ℕ) = n then 1 else 0)
  else if (j : ℕ) = i + 1 then moranUp n i s u v
  else if (j : ℕ) = i then 1 - moranDown n i s v - moranUp n i s u v
  else if (j : ℕ) = i - 1 then moranDown n i s v
  else 0

/-- `ps` (`generators.py:919-922`): success probability of row `i`. -/
def wfProb (n i : ℕ) (s u v : K) : K :=
  let k := (i : K) / n
  let pm := k * (1 - u) + (1 - k) * v
  min ((pm * (1 + s)) / (pm * (1 + s) - pm + 1)) 1

/-- `np.exp(scipy.stats.binom.logpmf(j, n, p))` (`generators.py:924`): the binomial probability;
SciPy's evaluation through logarithms is taken to be exact. -/
def binomPmf (n : ℕ) (p : K) (j : ℕ) : K := (n.choose j : K) * p ^ j * (1 - p) ^ (n - j)

/-- The Wright-Fisher branch before normalisation (`generators.py:891-896`, `:915-924`). -/
def wrightFisherRaw (n : ℕ) (s u v : K) : Matrix (Fin (n + 1)) (Fin (n + 1)) K := fun i j =>
  if (i : ℕ) = 0 then (if (j : ℕ) = 0 then 1 else 0)
  else if (i : ℕ) = n then (if (j : ℕ) = n then 1 else 0)
  else binomPmf n (wfProb n i s u v) j

/-- `MarkovChain.population_genetics_model` (`markov_chain.py:2606-2646`,
`generators.py:887-930`). A zero denominator in the Moran branch raises `ZeroDivisionError`
(Python integers and floats), which is the first test below. -/
def populationGenetics (model n s u v states : PyVal K) : R (MC K) :=
  validateEnumerator model ["moran", "wright-fisher"] >>= fun model =>
  validateInteger n (some (2, false)) (some (500, false)) >>= fun z =>
  validateFloat s (some (-1, false)) none >>= fun s =>
  validateFloat u (some (0, false)) (some (1, false)) >>= fun u =>
  validateFloat v (some (0, false)) (some (1, false)) >>= fun v =>
  labelsOrDefault states (z.toNat + 1) "" >>= fun labels =>
  if model = "wright-fisher" ∧ 4 * (z.toNat : K) * max u v > 1 then throw .valueError
  else if model = "moran" then
    if ∃ i ∈ List.range z.toNat, 1 ≤ i ∧ (1 - s) * (i : K) + ((z.toNat : K) - i) = 0 then
      throw .valueError
    else pure ⟨z.toNat + 1, normalizeRows (moranRaw z.toNat s u v), labels⟩
  else pure ⟨z.toNat + 1, normalizeRows (wrightFisherRaw z.toNat s u v), labels⟩

/-! ## Birth-death -/

/-- The sum of three diagonals in `mc_birth_death` (`generators.py:559-561`). -/
def birthDeathRaw {n : ℕ} (p q : Fin n → K) : Matrix (Fin n) (Fin n) K := fun i j =>
  if (j : ℕ) = i then 1 - q i - p i
  else if (j : ℕ) = i + 1 then p i
  else if (j : ℕ) + 1 = i then q i
  else 0

/-- `mc_birth_death` (`generators.py:557-569`). -/
def birthDeathMatrix {n : ℕ} (p q : Fin n → K) : Matrix (Fin n) (Fin n) K :=
  normalizeRows (fillNullRows (zeroSmall (birthDeathRaw p q)))

/-- `MarkovChain.birth_death` (`markov_chain.py:2176-2211`). -/
def birthDeath (p q states : PyVal K) : R (MC K) :=
  validateVector p .creation false none >>= fun p =>
  validateVector q .annihilation false none >>= fun q =>
  labelsOrDefault states p.length "" >>= fun labels =>
  if p.length ≠ q.length then throw .valueError
  else if ¬ ∀ i : Fin p.length, listVec q p.length i + listVec p p.length i ≤ 1 then
    throw .valueError
  else pure ⟨p.length, birthDeathMatrix (listVec p p.length) (listVec q p.length), labels⟩

/-! ## Bounded, lazy, merged and n-th order chains -/

/-- The boundary rows of `mc_bounded` (`generators.py:576-593`). -/
def boundedMatrix {n : ℕ} (P : Matrix (Fin n) (Fin n) K) (stayFirst moveFirst stayLast moveLast : K) :
    Matrix (Fin n) (Fin n) K := fun i j =>
  if (i : ℕ) = n - 1 then
    (if (j : ℕ) = n - 2 then moveLast else if (j : ℕ) = n - 1 then stayLast else 0)
  else if (i : ℕ) = 0 then
    (if (j : ℕ) = 1 then moveFirst else if (j : ℕ) = 0 then stayFirst else 0)
  else P i j

/-- `MarkovChain.to_bounded_chain` (`markov_chain.py:1906-1931`, `generators.py:572-601`). The
result `none` stands for a returned chain that contains NaN entries. -/
def toBounded (c : MC K) (cond : PyVal K) : R (Option (MC K)) :=
  validateBoundaryCondition cond >>= fun b =>
  match b with
  | .number (.fin x) => pure (some ⟨c.n, boundedMatrix c.p (1 - x) x x (1 - x), c.states⟩)
  | .number _ => pure none
  | .absorbing => pure (some ⟨c.n, boundedMatrix c.p 1 0 1 0, c.states⟩)
  | .reflecting => pure (some ⟨c.n, boundedMatrix c.p 0 1 0 1, c.states⟩)

/-- `mc_lazy` (`generators.py:845-853`). -/
def lazyMatrix {n : ℕ} (P : Matrix (Fin n) (Fin n) K) (w : Fin n → K) : Matrix (Fin n) (Fin n) K :=
  fun i j => (1 - w i) * P i j + (if i = j then 1 else 0) * w j

/-- `MarkovChain.to_lazy_chain` (`markov_chain.py:2001-2024`). -/
def toLazy (c : MC K) (weights : PyVal K) : R (MC K) :=
  validateVector weights .unconstrained true (some c.n) >>= fun w =>
  pure ⟨c.n, lazyMatrix c.p (listVec w c.n), c.states⟩

/-- `MarkovChain.merge_with` (`markov_chain.py:1619-1646`). -/
def mergeWith (c other : MC K) (gamma : PyVal K) : R (MC K) :=
  if h : other.n = c.n then
    validateFloat gamma (some (0, true)) (some (1, true)) >>= fun g =>
    pure ⟨c.n, fun i j => (1 - g) * c.p i j + g * other.p (i.cast h.symm) (j.cast h.symm),
      createLabels c.n "M"⟩
  else throw .valueError

/-- `MarkovChain.to_nth_order` (`markov_chain.py:2038-2061`); `np.linalg.matrix_power` is the
matrix power. -/
def toNthOrder (c : MC K) (order : PyVal K) : R (MC K) :=
  validateInteger order (some (2, false)) none >>= fun z =>
  pure ⟨c.n, c.p ^ z.toNat, c.states⟩

/-- One row of the loop in `mc_redistribute` (`simulations.py:183-185`). -/
def redistStep {n : ℕ} (P : Matrix (Fin n) (Fin n) K) (d : Fin n → K) : Fin n → K :=
  fun j => (Matrix.vecMul d P) j / ∑ l, (Matrix.vecMul d P) l

/-- The distributions computed by `mc_redistribute`: row `k` of `value`
(`simulations.py:176-192`). -/
def redistRow {n : ℕ} (P : Matrix (Fin n) (Fin n) K) (d : Fin n → K) : ℕ → Fin n → K
  | 0 => d
  | k + 1 => redistStep P (redistRow P d k)

/-- `MarkovChain.redistribute` (`markov_chain.py:1740-1762`); a single distribution when only the
last one is requested, all of them otherwise. -/
def redistribute (c : MC K) (steps status outputLast : PyVal K) : R (List (Fin c.n → K)) :=
  validateInteger steps (some (1, false)) none >>= fun z =>
  (match status with
    | .none => pure (List.replicate c.n (1 / (c.n : K)))
    | v => validateStatus v c.states) >>= fun d =>
  validateBoolean outputLast >>= fun last =>
  pure (if last then [redistRow c.p (listVec d c.n) z.toNat]
    else (List.range (z.toNat + 1)).map (redistRow c.p (listVec d c.n)))

/-! ## Rouwenhorst -/

/-- `_rouwenhorst_matrix` (`generators.py:395-416`) for `size = n + 2`. -/
def rouwenhorst (z : K) : (n : ℕ) → Matrix (Fin (n + 2)) (Fin (n + 2)) K
  | 0 => !![z, 1 - z; 1 - z, z]
  | n + 1 => fun i j =>
    let inner : ℕ → ℕ → K := fun a b =>
      if h : a < n + 2 ∧ b < n + 2 then rouwenhorst z n ⟨a, h.1⟩ ⟨b, h.2⟩ else 0
    let t1 := z * inner i j
    let t2 := if 1 ≤ (j : ℕ) then (1 - z) * inner i (j - 1) else 0
    let t3 := if 1 ≤ (i : ℕ) then (1 - z) * inner (i - 1) j else 0
    let t4 := if 1 ≤ (i : ℕ) ∧ 1 ≤ (j : ℕ) then z * inner (i - 1) (j - 1) else 0
    let s := t1 + t2 + t3 + t4
    if 1 ≤ (i : ℕ) ∧ (i : ℕ) < n + 2 then s / 2 else s

/-- The Rouwenhorst case of `MarkovChain.approximation` (`markov_chain.py:2118-2172`,
`generators.py:436-439`); `alpha` and `sigma` are validated and not used. -/
def approximationRouwenhorst (size alpha sigma rho states : PyVal K) : R (MC K) :=
  validateInteger size (some (2, false)) none >>= fun n =>
  validateFloat alpha none none >>= fun _ =>
  validateFloat sigma (some (0, true)) none >>= fun _ =>
  validateFloat rho (some (-1, false)) (some (1, false)) >>= fun rho =>
  labelsOrDefault states n.toNat "" >>= fun labels =>
  pure ⟨(n.toNat - 2) + 2, rouwenhorst ((1 + rho) / 2) (n.toNat - 2), labels⟩

end Verif
