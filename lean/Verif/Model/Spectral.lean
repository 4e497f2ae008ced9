import Verif.Model.Times
import Mathlib.Analysis.SpecialFunctions.Log.Basic
import Mathlib.LinearAlgebra.Matrix.Charpoly.Eigs
import Mathlib.Analysis.Complex.Basic

/-!
# Eigenvalues and eigenvectors

Models `rdl_decomposition`, `eigenvalues_sorted` and `slem` of `/repo/pydtmc/computations.py` and the
properties of `/repo/pydtmc/markov_chain.py` that depend on them. `numpy.linalg.eig` and `eigvals`
are parameters with contracts. Properties that may be `None` are options; a missing element of an
array (`IndexError`) is reported as `valueError`.
-/

namespace Verif

open Classical in
/-- `numpy.linalg.solve(a, eye)` of a complex matrix; `LinAlgError` is reported as `valueError`. -/
noncomputable def complexInv {n : ℕ} (A : Matrix (Fin n) (Fin n) ℂ) :
    R (Matrix (Fin n) (Fin n) ℂ) :=
  if A.det = 0 then throw .valueError else pure A⁻¹

/-- The result of `numpy.linalg.eig`. -/
structure EigResult (n : ℕ) where
  values : Fin n → ℂ
  vectors : Matrix (Fin n) (Fin n) ℂ

/-- The contract of `numpy.linalg.eig` on a real matrix: the columns are eigenvectors, they are real
for real eigenvalues, and eigenvalues that are not real come in conjugate pairs with conjugate
eigenvectors. -/
def EigResult.Sound {n : ℕ} (P : Matrix (Fin n) (Fin n) ℝ) (e : EigResult n) : Prop :=
  (∀ i j, ∑ k, (P i k : ℂ) * e.vectors k j = e.vectors i j * e.values j) ∧
  (∀ j, (e.values j).im = 0 → ∀ i, (e.vectors i j).im = 0) ∧
  ∀ j, (e.values j).im ≠ 0 → ∃ k, e.values k = (starRingEnd ℂ) (e.values j) ∧
    ∀ i, e.vectors i k = (starRingEnd ℂ) (e.vectors i j)

/-- The sum `k` of the first column (`computations.py:327`). -/
noncomputable def firstColumnSum {n : ℕ} (l : Matrix (Fin n) (Fin n) ℂ) : ℂ :=
  ∑ i, ∑ j, if j.val = 0 then l i j else 0

open Classical in
/-- Multiplication of the first column (`computations.py:329-331`), unless the factor is close to
zero. -/
noncomputable def scaleFirst {n : ℕ} (k f : ℂ) (m : Matrix (Fin n) (Fin n) ℂ) :
    Matrix (Fin n) (Fin n) ℂ := fun i j =>
  if ‖k‖ ≤ 1 / 10 ^ 8 then m i j else if j.val = 0 then m i j * f else m i j

/-- The real parts that are returned (`computations.py:333-337`). -/
noncomputable def rdlReal {n : ℕ} (v : Fin n → ℂ) (r l : Matrix (Fin n) (Fin n) ℂ) : Rdl ℝ n :=
  ⟨fun i j => (r i j).re, fun j => (v j).re, fun i j => (l j i).re⟩

/-- `rdl_decomposition` (`computations.py:315-337`); `indices` is the result of `argsort`, reversed,
which is some permutation. -/
noncomputable def rdlDecomposition {n : ℕ} (e : EigResult n) (indices : Equiv.Perm (Fin n)) :
    R (Rdl ℝ n) :=
  complexInv (Matrix.transpose fun i j => e.vectors i (indices j)) >>= fun l =>
  pure (rdlReal (fun j => e.values (indices j))
    (scaleFirst (firstColumnSum l) (firstColumnSum l) fun i j => e.vectors i (indices j))
    (scaleFirst (firstColumnSum l) (firstColumnSum l)⁻¹ l))

/-! ## The second largest eigenvalue modulus -/

/-- The contract of `numpy.linalg.eigvals`: the roots of the characteristic polynomial with
multiplicities. -/
def EigvalsSound {n : ℕ} (P : Matrix (Fin n) (Fin n) ℝ) (ev : List ℂ) : Prop :=
  (P.map (algebraMap ℝ ℂ)).charpoly.roots = (ev : Multiset ℂ)

/-- `eigenvalues_sorted` (`computations.py:158-163`). -/
noncomputable def eigenvaluesSorted (ev : List ℂ) : List ℝ :=
  (ev.map fun z => ‖z‖).insertionSort (· ≤ ·)

/-- `slem` (`computations.py:340-348`). -/
noncomputable def slemOf (ev : List ℂ) : R (Option ℝ) :=
  orRaise ((eigenvaluesSorted ev).filter fun x => !isclose x 1).getLast? >>= fun value =>
  pure (if isclose value 0 then none else some value)

/-- `__slem` (`markov_chain.py:343-350`). -/
noncomputable def slem (c : MC ℝ) (nx : Nx c.n) (ev : List ℂ) : R (Option ℝ) :=
  if isErgodic c nx = false then pure none else slemOf ev

/-- `spectral_gap` (`markov_chain.py:947-959`). -/
noncomputable def spectralGap (c : MC ℝ) (nx : Nx c.n) (ev : List ℂ) : R (Option ℝ) :=
  slem c nx ev >>= fun s => pure (s.map fun s => 1 - s)

/-- `relaxation_rate` (`markov_chain.py:923-935`). -/
noncomputable def relaxationRate (c : MC ℝ) (nx : Nx c.n) (ev : List ℂ) : R (Option ℝ) :=
  slem c nx ev >>= fun s => pure (s.map fun s => 1 / (1 - s))

/-- `mixing_rate` (`markov_chain.py:803-815`). -/
noncomputable def mixingRate (c : MC ℝ) (nx : Nx c.n) (ev : List ℂ) : R (Option ℝ) :=
  slem c nx ev >>= fun s => pure (s.map fun s => -1 / Real.log s)

/-- The entries of `-1.0 / log(ev)` for the moduli of eigenvalues (`markov_chain.py:568-569`); the
logarithm of zero is minus infinity, its negated reciprocal is zero. The logarithm of one is zero
and gives minus infinity. -/
noncomputable def timescale (x : ℝ) : Flt ℝ :=
  if x = 0 then .fin 0 else if x = 1 then .inf true else .fin (-1 / Real.log x)

/-- `implied_timescales` (`markov_chain.py:555-571`). -/
noncomputable def impliedTimescales (c : MC ℝ) (nx : Nx c.n) (ev : List ℂ) :
    R (Option (List (Flt ℝ))) :=
  if isErgodic c nx = false then pure none
  else pure (some (.inf false :: ((eigenvaluesSorted ev).reverse.drop 1).map timescale))

end Verif
