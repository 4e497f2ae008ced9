import Verif.Model.Rounded
import Verif.Model.Times

/-!
# Time correlations, time relaxations and expected transitions with rounding

Models the branches of `mc_time_correlations`, `mc_time_relaxations` and `mc_expected_transitions` of
`/repo/pydtmc/measures.py` that multiply by the transition matrix step by step, that is for time points
and numbers of steps up to the number of states. The other branches use the eigenvalues and are not
modelled here. The operations are those of `Arith`. The numbers of occurrences are integers, which are
doubles.
-/

namespace Verif

variable {K : Type} [Field K] [LinearOrder K]

/-- `_np.dot(p, pk_i)` (`measures.py:586`, `:592`, `:595`, `:598`). -/
def rowsStepF (F : Arith K) {n : ℕ} (P : Matrix (Fin n) (Fin n) K) (w : Fin n → K) : Fin n → K :=
  fun i => F.dot (List.ofFn fun j => (P i j, w j))

/-- `_np.dot(pk_i, p)` (`measures.py:662`, `:668`, `:671`, `:674`) and `_np.dot(idist, p)` (`:182`). -/
def columnsStepF (F : Arith K) {n : ℕ} (P : Matrix (Fin n) (Fin n) K) (w : Fin n → K) : Fin n → K :=
  fun j => F.dot (List.ofFn fun i => (w i, P i j))

/-- The correlations at the time points (`measures.py:571-604`). -/
def correlationsF (F : Arith K) {n : ℕ} (P : Matrix (Fin n) (Fin n) K) (x o1 o2 : Fin n → K) (ts : List ℕ) :
    List K :=
  (timeLoop (rowsStepF F P) o2 none ts).map fun pk => F.dot (List.ofFn fun i => (F.mul (o1 i) (x i), pk i))

/-- The relaxations at the time points (`measures.py:649-680`). -/
def relaxationsF (F : Arith K) {n : ℕ} (P : Matrix (Fin n) (Fin n) K) (d o : Fin n → K) (ts : List ℕ) : List K :=
  (timeLoop (columnsStepF F P) d none ts).map fun pk => F.dot (List.ofFn fun i => (pk i, o i))

/-- `mc_time_correlations` (`measures.py:520-609`) when no time point exceeds the number of states. -/
def mcTimeCorrelationsF (F : Arith K) (c : MC K) (sccs : List (List (Fin c.n))) (seq1 : List ℕ)
    (seq2 : Option (List ℕ)) (tp : OneOrMany ℕ) : R (Option (OneOrMany K)) :=
  piF F c sccs >>= fun l =>
  if l.length > 1 then pure none
  else orRaise l.head? >>= fun x =>
    pure (tp.wrap (correlationsF F c.p x (observations seq1) (secondObservations seq1 seq2) tp.toList))

/-- `mc_time_relaxations` (`measures.py:612-685`) when no time point exceeds the number of states. -/
def mcTimeRelaxationsF (F : Arith K) (c : MC K) (sccs : List (List (Fin c.n))) (seq : List ℕ)
    (d : Fin c.n → K) (tp : OneOrMany ℕ) : R (Option (OneOrMany K)) :=
  piF F c sccs >>= fun l =>
  if l.length > 1 then pure none
  else pure (tp.wrap (relaxationsF F c.p d (observations seq) tp.toList))

/-- The loop of `mc_expected_transitions` (`measures.py:178-183`), in which `idist` and `idist_sum` are
names of the same array. -/
def idistSumF (F : Arith K) {n : ℕ} (P : Matrix (Fin n) (Fin n) K) (d : Fin n → K) : ℕ → Fin n → K
  | 0 => d
  | k + 1 => fun j => F.add (idistSumF F P d k j) (columnsStepF F P (idistSumF F P d k) j)

/-- `mc_expected_transitions` (`measures.py:174-185`) when the number of steps does not exceed the number of
states. -/
def mcExpectedTransitionsF (F : Arith K) {n : ℕ} (P : Matrix (Fin n) (Fin n) K) (steps : ℕ)
    (d : Fin n → K) : Fin n → Fin n → K :=
  fun i j => F.mul (idistSumF F P d (steps - 1) i) (P i j)

end Verif
