import Verif.Model.RoundedSolve

/-!
# Hitting probabilities and times with routines that round

The programs of `Model/Measures.lean` in which the differences `P - I` and the sums of the right-hand side are rounded
and `scipy.optimize.nnls` is a parameter that need not return exact results.
-/

namespace Verif

variable {K : Type} [Field K] [LinearOrder K] [IsStrictOrderedRing K]

/-- `mc_hitting_probabilities` (`measures.py:270-285`); `sum` is `numpy.sum` over a row. -/
def mcHittingProbabilitiesF {n : ℕ} (fl : K → K) (nnls : Nnls K) (sum : List K → K) (P : Matrix (Fin n) (Fin n) K)
    (S : List (Fin n)) : Fin n → K :=
  let N := complementIdx S
  if 0 < N.length then
    assignAt N (nnls N.length (minusEyeF fl (subMatrix P N)) fun a => sum (S.map fun j => -P (N.get a) j)) fun _ => 1
  else fun _ => 1

/-- `mc_hitting_times` (`measures.py:288-317`); `none` is infinity. The loop only asks whether sums of nonnegative
numbers are zero, so that rounding makes no difference to it. -/
def mcHittingTimesF {n : ℕ} (fl : K → K) (nnls : Nnls K) (sum : List K → K) (P : Matrix (Fin n) (Fin n) K)
    (S : List (Fin n)) : Fin n → Option K :=
  let hp := mcHittingProbabilitiesF fl nnls sum P S
  let I := infinityLoop P S (n + 2) 0 (Finset.univ.filter fun i => isclose (hp i) 0 = true)
  let N := (List.finRange n).filter fun i => decide (i ∉ S ∧ i ∉ I)
  assignAt N (fun a => some (nnls N.length (minusEyeF fl (subMatrix P N)) (fun _ => -1) a))
    fun i => if i ∈ I then none else some 0

/-- `hitting_probabilities` (`markov_chain.py:1326-1351`). -/
def hittingProbabilitiesF (fl : K → K) (nnls : Nnls K) (sum : List K → K) (c : MC K) (targets : Option (PyVal K)) :
    R (Fin c.n → K) :=
  hittingTargets c targets >>= fun S => pure (mcHittingProbabilitiesF fl nnls sum c.p S)

/-- `hitting_times` (`markov_chain.py:1354-1379`). -/
def hittingTimesF (fl : K → K) (nnls : Nnls K) (sum : List K → K) (c : MC K) (targets : Option (PyVal K)) :
    R (Fin c.n → Option K) :=
  hittingTargets c targets >>= fun S => pure (mcHittingTimesF fl nnls sum c.p S)

end Verif
