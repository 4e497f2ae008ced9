import Verif.Model.Measures
import Verif.Model.Rounded

/-!
# Passage times, committors and absorption with a solver that rounds

The programs of `Model/Measures.lean` in which the differences `I - P` are rounded and the routines for linear
equations, for inverses and for products are parameters, because LAPACK and BLAS do not return exact results.
-/

namespace Verif

variable {K : Type} [Field K] [LinearOrder K] [IsStrictOrderedRing K]

/-- `numpy.linalg.solve`, a parameter; `none` stands for `LinAlgError`. -/
def Solver (K : Type) : Type := (m : ℕ) → Matrix (Fin m) (Fin m) K → (Fin m → K) → Option (Fin m → K)

/-- `numpy.linalg.inv`, a parameter; `none` stands for `LinAlgError`. -/
def Inverter (K : Type) : Type := (m : ℕ) → Matrix (Fin m) (Fin m) K → Option (Matrix (Fin m) (Fin m) K)

/-- A product of two vectors in `numpy.dot` and `numpy.matmul`, a parameter. -/
def DotProduct (K : Type) : Type := (m : ℕ) → (Fin m → K) → (Fin m → K) → K

/-- `numpy.eye(n) - p` (`measures.py:369`, `markov_chain.py:545-550`) with rounding. -/
def eyeMinusF {n : ℕ} (fl : K → K) (P : Matrix (Fin n) (Fin n) K) : Matrix (Fin n) (Fin n) K := fun i j =>
  fl ((if i = j then 1 else 0) - P i j)

/-- `p - numpy.eye(n)` (`measures.py:143`) with rounding. -/
def minusEyeF {n : ℕ} (fl : K → K) (P : Matrix (Fin n) (Fin n) K) : Matrix (Fin n) (Fin n) K := fun i j =>
  fl (P i j - if i = j then 1 else 0)

/-- `mc_mean_first_passage_times_to` with targets (`measures.py:348-378`). The stationary distribution, which is read
first, is not used with targets. -/
def mfptToF (fl : K → K) (solve : Solver K) (c : MC K) (nx : Nx c.n) (S : List (Fin c.n)) :
    R (Option (Fin c.n → K)) :=
  if isErgodic c nx then
    orRaise (solve c.n (unitRows (eyeMinusF fl c.p) S) fun i => if i ∈ S then 0 else 1) >>= fun t =>
    pure (some t)
  else pure none

/-- `mc_committor_probabilities` for the forward direction (`measures.py:133-160`). The
stationary distribution, which is read first, is not used in this direction. -/
def mcCommittorF (fl : K → K) (solve : Solver K) (c : MC K) (nx : Nx c.n) (A B : List (Fin c.n)) :
    R (Option (Fin c.n → K)) :=
  if isErgodic c nx then
    orRaise (solve c.n (unitRows (unitRows (minusEyeF fl c.p) A) B) (oneOn B)) >>= fun q =>
    pure (some fun i => if isclose (q i) 0 then 0 else q i)
  else pure none

/-- `fundamental_matrix` (`markov_chain.py:534-552`). -/
def fundamentalMatrixF (fl : K → K) (inv : Inverter K) (c : MC K) (sccs : List (List (Fin c.n))) :
    R (Option (Matrix (Fin (transientStatesIdx c.p sccs).length) (Fin (transientStatesIdx c.p sccs).length) K)) :=
  if isAbsorbing c = false ∨ (transientStates c sccs).length = 0 then pure none
  else orRaise (inv _ (eyeMinusF fl (subMatrix c.p (transientStatesIdx c.p sccs)))) >>= fun m => pure (some m)

/-- `mc_mean_absorption_times` (`measures.py:320-328`). -/
def meanAbsorptionTimesF (fl : K → K) (inv : Inverter K) (dot : DotProduct K) (c : MC K)
    (sccs : List (List (Fin c.n))) : R (Option (Fin (transientStatesIdx c.p sccs).length → K)) :=
  if isAbsorbing c = false ∨ (transientStates c sccs).length = 0 then pure none
  else fundamentalMatrixF fl inv c sccs >>= fun m =>
    orRaise m >>= fun m => pure (some fun i => dot _ (m i) fun _ => 1)

/-- `mc_absorption_probabilities` (`measures.py:117-130`). -/
def absorptionProbabilitiesF (fl : K → K) (inv : Inverter K) (dot : DotProduct K) (c : MC K)
    (sccs : List (List (Fin c.n))) :
    R (Option (Fin (absorbingIdx c.p).length → Fin (transientStatesIdx c.p sccs).length → K)) :=
  if isAbsorbing c = false ∨ (transientStates c sccs).length = 0 then pure none
  else fundamentalMatrixF fl inv c sccs >>= fun m =>
    orRaise m >>= fun m =>
    pure (some fun a i => dot _ (m i) fun k => c.p ((transientStatesIdx c.p sccs).get k) ((absorbingIdx c.p).get a))

/-- `mc_mean_recurrence_times` (`measures.py:457-466`); the tolerance of `isclose` is not rounded. -/
def meanRecurrenceTimesF (F : Arith K) (c : MC K) (nx : Nx c.n) : R (Option (Fin c.n → K)) :=
  if isErgodic c nx then
    piF F c nx.sccs >>= fun l =>
    orRaise l.head? >>= fun x => pure (some fun i => if isclose (x i) 0 then 0 else F.div 1 (x i))
  else pure none

end Verif
