import Verif.Model.Measures
import Verif.Model.Random
import Mathlib.Probability.Distributions.Gaussian.Real
import Mathlib.Analysis.SpecialFunctions.Pow.Real

/-!
# Adda-Cooper and Tauchen-Hussey approximations

Models two cases of `mc_approximation` (`/repo/pydtmc/generators.py`) and of
`MarkovChain.approximation` (`/repo/pydtmc/markov_chain.py`) over the real numbers. The functions of
`scipy` are exact: `norm.cdf` and `norm.pdf` are those of the normal distribution, and `quad` is the
integral. `norm.ppf` is a parameter.
-/

namespace Verif

open MeasureTheory ProbabilityTheory

/-- `scipy.stats.norm.cdf`. -/
noncomputable def normCdf (x : ℝ) : ℝ := (gaussianReal 0 1).real (Set.Iic x)

/-- `scipy.stats.norm.pdf(x, loc, scale)`. -/
noncomputable def normPdf (x loc scale : ℝ) : ℝ :=
  Real.exp (-((x - loc) / scale) ^ 2 / 2) / (scale * Real.sqrt (2 * Real.pi))

/-- The contract of `scipy.stats.norm.ppf`, the inverse of `norm.cdf`. -/
def IsPpf (ppf : ℝ → EReal) : Prop :=
  ppf 0 = ⊥ ∧ ppf 1 = ⊤ ∧ ∀ u, 0 < u → u < 1 → ∃ q : ℝ, ppf u = q ∧ normCdf q = u

/-! ## Adda-Cooper -/

/-- `norm.cdf((z - alpha * (1 - rho) - rho * x) / sigma)` for a bound `z` that may be infinite
(`generators.py:389-390`). -/
noncomputable def addaCdf (alpha sigma rho x : ℝ) (z : EReal) : ℝ :=
  if z = ⊥ then 0 else if z = ⊤ then 1
  else normCdf ((z.toReal - alpha * (1 - rho) - rho * x) / sigma)

/-- `_adda_cooper_integrand` (`generators.py:386-393`). -/
noncomputable def addaIntegrand (x zSigma sigma rho alpha : ℝ) (zj zjp1 : EReal) : ℝ :=
  Real.exp (-1 * (x - alpha) ^ 2 / (2 * zSigma ^ 2)) *
    (addaCdf alpha sigma rho x zjp1 - addaCdf alpha sigma rho x zj)

/-- The element `k` of `z` (`generators.py:423`). -/
noncomputable def addaNode (ppf : ℝ → EReal) (size : ℕ) (alpha zSigma : ℝ) (k : ℕ) : EReal :=
  (zSigma : EReal) * ppf ((k : ℝ) / size) + alpha

/-- `scipy.integrate.quad(f, a, b)[0]` (`generators.py:433`). -/
noncomputable def quad (f : ℝ → ℝ) (a b : EReal) : ℝ := ∫ x in Real.toEReal ⁻¹' Set.Ioc a b, f x

/-- The matrix `p` (`generators.py:421-434`). -/
noncomputable def addaMatrix (ppf : ℝ → EReal) (size : ℕ) (alpha sigma rho zSigma : ℝ) :
    Matrix (Fin size) (Fin size) ℝ := fun i j =>
  let z := addaNode ppf size alpha zSigma
  size / Real.sqrt (2 * Real.pi * zSigma ^ 2) *
    quad (fun x => addaIntegrand x zSigma sigma rho alpha (z j) (z (j + 1))) (z i) (z (i + 1))

/-- The Adda-Cooper case of `MarkovChain.approximation` (`markov_chain.py:2118-2172`,
`generators.py:418-434`); `k` is not used. Python's division by zero raises `ZeroDivisionError` when
`rho` is `1` or `-1` (`generators.py:420`), represented by `valueError`. -/
noncomputable def approximationAddaCooper (ppf : ℝ → EReal) (size alpha sigma rho states : PyVal ℝ) :
    R (MC ℝ) :=
  validateInteger size (some (2, false)) none >>= fun n =>
  validateFloat alpha none none >>= fun alpha =>
  validateFloat sigma (some (0, true)) none >>= fun sigma =>
  validateFloat rho (some (-1, false)) (some (1, false)) >>= fun rho =>
  labelsOrDefault states n.toNat "" >>= fun labels =>
  if 1 - rho ^ 2 = 0 then throw .valueError
  else pure ⟨n.toNat,
    addaMatrix ppf n.toNat alpha sigma rho (sigma / Real.sqrt (1 - rho ^ 2)), labels⟩

/-! ## Tauchen-Hussey -/

/-- The loop over `j` (`generators.py:484-487`) after the first `j` passes; the values of `p1` and
`p2`. -/
noncomputable def hermite (z : ℝ) : ℕ → ℝ × ℝ
  | 0 => (1 / Real.pi ^ (1 / 4 : ℝ), 0)
  | j + 1 =>
    (z * Real.sqrt (2 / (j + 1 : ℕ)) * (hermite z j).1 -
      Real.sqrt ((((j + 1 : ℕ) : ℝ) - 1) / (j + 1 : ℕ)) * (hermite z j).2, (hermite z j).1)

/-- `pp` (`generators.py:489`). -/
noncomputable def hermiteSlope (size : ℕ) (z : ℝ) : ℝ :=
  Real.sqrt (2 * size) * (hermite z size).2

/-- The loop (`generators.py:475-498`) with a bound on the number of iterations; the result is `z`
and `pp`. A null `pp` gives infinite values or `nan`, for which the loop never ends with `break`. -/
noncomputable def newtonLoop (size : ℕ) : ℕ → ℝ → Option (ℝ × ℝ)
  | 0, _ => none
  | fuel + 1, z =>
    let pp := hermiteSlope size z
    let z' := z - (hermite z size).1 / pp
    if pp = 0 then none
    else if |z' - z| < 1 / 10 ^ 14 then some (z', pp)
    else newtonLoop size fuel z'

/-- The first guess of a node (`generators.py:463-473`); `z` is the previous node. A division by zero
is no number. -/
noncomputable def hermiteGuess (size i : ℕ) (z : ℝ) (nodes : ℕ → ℝ) : Option ℝ :=
  if i = 0 then
    some (Real.sqrt (2 * size + 1) - 185575 / 100000 * (2 * size + 1 : ℝ) ^ (-16393 / 100000 : ℝ))
  else if i = 1 then
    if z = 0 then none else some (z - 114 / 100 * (size : ℝ) ^ (426 / 1000 : ℝ) / z)
  else if i = 2 then some (186 / 100 * z + 86 / 100 * nodes 0)
  else if i = 3 then some (191 / 100 * z + 91 / 100 * nodes 1)
  else some (2 * z + nodes (i - 2))

/-- `z`, `nodes` and `weights` (`generators.py:455-459`). -/
structure Nodes where
  z : ℝ
  nodes : ℕ → ℝ
  weights : ℕ → ℝ

/-- The assignments of a pass (`generators.py:500-506`). -/
noncomputable def Nodes.store (q : Nodes) (size i : ℕ) (z pp : ℝ) : Nodes :=
  ⟨z,
    fun j => if j = size - 1 - i then z else if j = i then -z else q.nodes j,
    fun j => if j = size - 1 - i then 2 / pp ^ 2 else if j = i then 2 / pp ^ 2 else q.weights j⟩

/-- One pass of the loop over the nodes (`generators.py:461-506`). The loop also counts as failed if it
ends in the last of the hundred iterations (`generators.py:497`). -/
noncomputable def nodePass (size i : ℕ) (q : Nodes) : Option Nodes :=
  (hermiteGuess size i q.z q.nodes).bind fun z =>
  (newtonLoop size 99 z).map fun r => q.store size i r.1 r.2

/-- The first `i` passes. -/
noncomputable def nodePasses (size : ℕ) : ℕ → Option Nodes
  | 0 => some ⟨0, fun _ => 0, fun _ => 0⟩
  | i + 1 => (nodePasses size i).bind (nodePass size i)

/-- The nodes and the weights of the quadrature (`generators.py:443-506`), or its failure. -/
noncomputable def hermiteNodes (size : ℕ) : Option Nodes := nodePasses size ((size + 1) / 2)

/-- `nodes` after the transformation (`generators.py:452`, `:508`). -/
noncomputable def husseyNode (q : Nodes) (alpha k : ℝ) (i : ℕ) : ℝ :=
  q.nodes i * (Real.sqrt 2 * Real.sqrt (2 * k ^ 2)) + alpha

/-- The entries of `p` before the division by the sums of the rows (`generators.py:509-519`). -/
noncomputable def husseyEntry (q : Nodes) (alpha sigma rho k : ℝ) (i j : ℕ) : ℝ :=
  q.weights j / Real.sqrt Real.pi ^ 2 *
    normPdf (husseyNode q alpha k j) ((1 - rho) * alpha + rho * husseyNode q alpha k i) sigma /
    normPdf (husseyNode q alpha k j) alpha k

/-- The matrix (`generators.py:508-521`). -/
noncomputable def husseyMatrix (q : Nodes) (size : ℕ) (alpha sigma rho k : ℝ) :
    Matrix (Fin size) (Fin size) ℝ := fun i j =>
  husseyEntry q alpha sigma rho k i j / ∑ l : Fin size, husseyEntry q alpha sigma rho k i l

/-- The default of `k` (`markov_chain.py:2157`); `none` is infinity, which `numpy` returns for the
division by zero. -/
noncomputable def husseyDefault (sigma rho : ℝ) : Option ℝ :=
  if 1 - rho ^ 2 = 0 then none
  else some ((1 / 2 + rho / 4) * sigma + (1 - (1 / 2 + rho / 4)) * (sigma / Real.sqrt (1 - rho ^ 2)))

/-- The argument `k` (`markov_chain.py:2157`). -/
noncomputable def husseyScale (k : PyVal ℝ) (sigma rho : ℝ) : R (Option ℝ) :=
  match k with
  | .none => pure (husseyDefault sigma rho)
  | k => validateFloat k (some (0, true)) none >>= fun k => pure (some k)

/-- The Tauchen-Hussey case of `MarkovChain.approximation` (`markov_chain.py:2118-2172`,
`generators.py:441-521`). The result `none` stands for a returned chain with entries `nan`: an infinite
`k` makes the nodes infinite, and `norm.pdf` of an infinite value with infinite scale is `nan`. -/
noncomputable def approximationTauchenHussey (size alpha sigma rho states k : PyVal ℝ) :
    R (Option (MC ℝ)) :=
  validateInteger size (some (2, false)) none >>= fun n =>
  validateFloat alpha none none >>= fun alpha =>
  validateFloat sigma (some (0, true)) none >>= fun sigma =>
  validateFloat rho (some (-1, false)) (some (1, false)) >>= fun rho =>
  labelsOrDefault states n.toNat "" >>= fun labels =>
  husseyScale k sigma rho >>= fun k =>
  orRaise (hermiteNodes n.toNat) >>= fun q =>
  pure (k.map fun k => ⟨n.toNat, husseyMatrix q n.toNat alpha sigma rho k, labels⟩)

end Verif
