import Verif.Model.Generators
import Mathlib.Data.List.FinRange

/-!
# Random and numerical generators

Models the remaining generators of `/repo/pydtmc/generators.py` whose output depends on a random
number generator or on special functions. Random draws and special functions are parameters.
-/

namespace Verif

variable {K : Type} [Field K] [LinearOrder K]

/-! ## Dirichlet process -/

/-- The loop of `_gem_allocation` (`generators.py:799-805`): the weights, given the
probability allocated so far. -/
def gemLoop : List K → K → List K
  | [], _ => []
  | d :: ds, allocated =>
    let weight := (1 - allocated) * d
    weight :: gemLoop ds (allocated + weight)

/-- `_gem_allocation` (`generators.py:797-810`). -/
def gemAllocation (draws : List K) : List K :=
  let weights := gemLoop draws 0
  weights.map (· / weights.sum)

/-- The rows of `p` before the diagonal bias (`generators.py:812-816`). `draws i` are the values
returned by `rng.beta` for row `i`. -/
def dirichletBase {n : ℕ} (draws : Fin n → Fin n → K) (shift : Bool) : Matrix (Fin n) (Fin n) K :=
  fun i j => (gemAllocation (List.ofFn (draws i))).getD (if shift then (j.rev : ℕ) else j) 0

/-- `mc_dirichlet_process` (`generators.py:795-825`); `bias` are the draws for the diagonal when a
bias factor is given. -/
def dirichletMatrix {n : ℕ} (draws : Fin n → Fin n → K) (bias : Option (Fin n → K)) (shift : Bool) :
    Matrix (Fin n) (Fin n) K :=
  match bias with
  | none => dirichletBase draws shift
  | some b => normalizeRows fun i j => dirichletBase draws shift i j + if i = j then b i else 0

/-- `MarkovChain.dirichlet_process` (`markov_chain.py:2215-2250`); `draws` and `bias` are the values
returned by the two calls of `rng.beta`, and the seed is not modelled. -/
def dirichletProcess (size diffusion states biasFactor shift : PyVal K)
    (draws : ∀ n, Fin n → Fin n → K) (bias : ∀ n, Fin n → K) : R (MC K) :=
  validateInteger size (some (2, false)) none >>= fun n =>
  validateInteger diffusion (some (1, false)) (some (n, false)) >>= fun _ =>
  (match biasFactor with
    | .none => pure none
    | b => validateFloat b (some (0, true)) none >>= fun _ => pure (some (bias n.toNat))) >>= fun b =>
  validateBoolean shift >>= fun shift =>
  labelsOrDefault states n.toNat "" >>= fun labels =>
  pure ⟨n.toNat, dirichletMatrix (draws n.toNat) b shift, labels⟩

/-! ## Random chains with a mask -/

/-- A mask; `none` is NaN (an undefined transition probability). -/
abbrev Mask (K : Type) (n : ℕ) := Fin n → Fin n → Option K

/-- `np.nansum(mask[i, :])` (`generators.py:936`). -/
def nansum {n : ℕ} (mask : Mask K n) (i : Fin n) : K := ∑ j, (mask i j).getD 0

/-- The content tests of `validate_mask` (`validation.py:661-665`). -/
def validMask {n : ℕ} (mask : Mask K n) : Prop :=
  (∀ i j x, mask i j = some x → 0 ≤ x ∧ x ≤ 1) ∧ ∀ i, nansum mask i ≤ 1

/-- `full_rows` (`generators.py:936`). -/
def rowFull {n : ℕ} (mask : Mask K n) (i : Fin n) : Bool := isclose (nansum mask i) 1

/-- `mask[np.isnan(mask) & mask_full] = 0.0` (`generators.py:938-939`). -/
def fillFull {n : ℕ} (mask : Mask K n) : Mask K n := fun i j =>
  if mask i j = none ∧ rowFull mask i then some 0 else mask i j

/-- `np.flatnonzero(mask_unassigned[i, :])` (`generators.py:951-952`). -/
def freeCols {n : ℕ} (mask : Mask K n) (i : Fin n) : List (Fin n) :=
  (List.finRange n).filter fun j => (fillFull mask i j).isNone

/-- `zeros_required` (`generators.py:941-942`). -/
def zerosRequired {n : ℕ} (mask : Mask K n) : ℤ :=
  (((List.finRange n).map fun i => (freeCols mask i).length).sum : ℤ) -
    ((List.finRange n).filter fun i => ¬ rowFull mask i).length

/-- The random draws used by `mc_random`: `pick i m` is `rng.randint(0, m)` for row `i`, `perm m`
is `rng.permutation(m)`, and `value i j` is the uniform draw for position `(i, j)` (the code fills
the positions in row order; a stream is an assignment of draws to positions). -/
structure Draws (K : Type) (n : ℕ) where
  pick : Fin n → ℕ → ℕ
  perm : ℕ → List ℕ
  value : Fin n → Fin n → K

/-- The column kept for row `i` (`generators.py:949-954`). -/
def keptCol {n : ℕ} (mask : Mask K n) (dr : Draws K n) (i : Fin n) : Option (Fin n) :=
  if rowFull mask i then none
  else (freeCols mask i)[dr.pick i (freeCols mask i).length]?

/-- `indices_unassigned` (`generators.py:956-957`), as positions in row order. -/
def candidates {n : ℕ} (mask : Mask K n) (dr : Draws K n) : List (Fin n × Fin n) :=
  (List.finRange n).flatMap fun i =>
    ((freeCols mask i).filter fun j => keptCol mask dr i ≠ some j).map fun j => (i, j)

/-- `indices_zero` (`generators.py:959-961`). -/
def zeroPositions {n : ℕ} (mask : Mask K n) (dr : Draws K n) (zeros : ℕ) : List (Fin n × Fin n) :=
  ((dr.perm (zerosRequired mask).toNat).take zeros).filterMap fun k => (candidates mask dr)[k]?

/-- The mask after the zeros are placed and the infinities removed (`generators.py:963-964`). -/
def finalMask {n : ℕ} (mask : Mask K n) (dr : Draws K n) (zeros : ℕ) : Mask K n := fun i j =>
  if (i, j) ∈ zeroPositions mask dr zeros then some 0 else fillFull mask i j

/-- Filling and rescaling (`generators.py:966-977`). -/
def randomMatrix {n : ℕ} (mask : Mask K n) (dr : Draws K n) (zeros : ℕ) : Matrix (Fin n) (Fin n) K :=
  fun i j =>
    let fm := finalMask mask dr zeros
    let s := ∑ l, if fm i l = none then dr.value i l else 0
    let si := ∑ l, (fm i l).getD 0
    match fm i j with
    | some x => x
    | none => if 0 < s then dr.value i j * ((1 - si) / s) else dr.value i j

/-- `mc_random` (`generators.py:934-981`). A row that is neither full nor has an undefined entry
makes `rng.randint(0, 0)` raise a `ValueError`; the other exception is a `ValidationError`, which the
model does not tell apart. -/
def mcRandom {n : ℕ} (mask : Mask K n) (dr : Draws K n) (zeros : ℕ) : R (Matrix (Fin n) (Fin n) K) :=
  if (zeros : ℤ) > zerosRequired mask then throw .valueError
  else if ∃ i, ¬ rowFull mask i ∧ freeCols mask i = [] then throw .valueError
  else pure (randomMatrix mask dr zeros)

/-- `MarkovChain.random` (`markov_chain.py:2651-2692`) for a mask that passed `validate_mask`; a
missing mask is the mask without assigned entries. The seed is not modelled. -/
def randomChain {n : ℕ} (mask : Mask K n) (dr : Draws K n) (states zeros : PyVal K) : R (MC K) :=
  validateInteger (.int n : PyVal K) (some (2, false)) none >>= fun _ =>
  labelsOrDefault states n "" >>= fun labels =>
  validateInteger zeros (some (0, false)) none >>= fun z =>
  mcRandom mask dr z.toNat >>= fun p =>
  pure ⟨n, p, labels⟩

/-! ## Random distribution -/

/-- The largest finite double. -/
def floatMax : K := 2 ^ 1024 - 2 ^ 971

/-- The smallest number that is rounded to infinity as a double. -/
def floatOver : K := 2 ^ 1024 - 2 ^ 970

/-- `np.nan_to_num` (`markov_chain.py:2732`). -/
def nanToNum : Flt K → K
  | .fin x => x
  | .nan => 0
  | .inf neg => if neg then -floatMax else floatMax

/-- The sum of a row and the division by it (`markov_chain.py:2734`). Everything is exact except that
a sum beyond the range of doubles is infinite, and a finite number divided by infinity is zero. -/
def normalizeRowsBounded {m n : ℕ} (M : Matrix (Fin m) (Fin n) K) : Matrix (Fin m) (Fin n) K :=
  fun i j => if floatOver ≤ ∑ l, M i l then 0 else M i j / ∑ l, M i l

/-- The matrix of `random_distribution` (`markov_chain.py:2731-2734`), given the drawn values. -/
def randomDistribution {n : ℕ} (draws : Fin n → Fin n → Flt K) : Matrix (Fin n) (Fin n) K :=
  normalizeRowsBounded (fillNullRows fun i j => max (nanToNum (draws i j)) 0)

/-- `validate_random_distribution` for a name (`validation.py:821-833`); `available` are the attributes
of the generator, `accepted` the recognised distributions. Functions are not represented. -/
def validateRandomDistribution (v : PyVal K) (available accepted : List String) : R String :=
  match v with
  | .str s =>
    if ¬ nonBlank s then throw .typeError
    else if s ∉ available then throw .valueError
    else if 0 < accepted.length ∧ s ∉ accepted then throw .valueError
    else pure s
  | _ => throw .typeError

/-- `MarkovChain.random_distribution` (`markov_chain.py:2718-2738`). `draw f n` are the values drawn
from the distribution `f` in an array of `n` rows and `n` columns; the call of the constructor
validates nothing (`markov_chain.py:212-222`). The seed is not modelled. -/
def randomDistributionChain (available accepted : List String)
    (draw : String → (n : ℕ) → Fin n → Fin n → Flt K) (size f states : PyVal K) : R (MC K) :=
  validateInteger size (some (2, false)) none >>= fun n =>
  validateRandomDistribution f available accepted >>= fun name =>
  labelsOrDefault states n.toNat "" >>= fun labels =>
  pure ⟨n.toNat, randomDistribution (draw name n.toNat), labels⟩

/-! ## Tauchen -/

/-- `np.linspace(-xmax, xmax, size)` at index `j` (`generators.py:532-534`). -/
def tauchenNode (size : ℕ) (xmax : K) (j : ℕ) : K :=
  -xmax + j * ((xmax - -xmax) / ((size - 1 : ℕ) : K))

/-- The matrix of the Tauchen branch (`generators.py:525-550`), given the standard deviation of the
process. `cdf` is `scipy.stats.norm.cdf`. -/
def tauchenMatrix (cdf : K → K) (size : ℕ) (sigma rho xmax : K) : Matrix (Fin size) (Fin size) K :=
  fun i j =>
    let x := tauchenNode size xmax
    let step := 1 / 2 * ((xmax - -xmax) / ((size - 1 : ℕ) : K))
    let rx := rho * x i
    if (j : ℕ) = 0 then cdf ((x 0 - rx + step) / sigma)
    else if (j : ℕ) = size - 1 then 1 - cdf ((x (size - 1) - rx - step) / sigma)
    else cdf ((x j - rx + step) / sigma) - cdf ((x j - rx - step) / sigma)

/-- The Tauchen case of `MarkovChain.approximation` (`markov_chain.py:2118-2172`,
`generators.py:523-554`); `sqrt` and `cdf` are the external functions. Python's float division by
zero raises `ZeroDivisionError` when `rho = -1`, represented by `valueError`. -/
def approximationTauchen (sqrt cdf : K → K) (size alpha sigma rho states k : PyVal K) : R (MC K) :=
  validateInteger size (some (2, false)) none >>= fun n =>
  validateFloat alpha none none >>= fun _ =>
  validateFloat sigma (some (0, true)) none >>= fun sigma =>
  validateFloat rho (some (-1, false)) (some (1, false)) >>= fun rho =>
  labelsOrDefault states n.toNat "" >>= fun labels =>
  (match k with
    | .none => pure 3
    | k => validateFloat k (some (1, false)) none) >>= fun k =>
  let rho' := if isclose rho 1 then 1 - 1 / 10 ^ 8 else rho
  if 1 - rho' ^ 2 = 0 then throw .valueError
  else
    let ystd := sqrt (sigma ^ 2 / (1 - rho' ^ 2))
    pure ⟨n.toNat, tauchenMatrix cdf n.toNat sigma rho' (ystd * k), labels⟩

end Verif
