import Verif.Model.Simulation

/-!
# The probability of a sequence with rounded arithmetic

`mc_sequence_probability` (`/repo/pydtmc/simulations.py`) with a rounded sum and with the logarithm and the exponential
function of an array library.
-/

namespace Verif

/-- The loop (`simulations.py:201-207`) with sums rounded by `fl` and the logarithm `ln`; `none` is `-inf`. -/
noncomputable def sequenceLoopF (fl ln : ℝ → ℝ) {n : ℕ} (P : Matrix (Fin n) (Fin n) ℝ) : ℝ → List (Fin n) → Option ℝ
  | wp, i :: j :: t => if 0 < P i j then sequenceLoopF fl ln P (fl (wp + ln (P i j))) (j :: t) else none
  | wp, _ => some wp

/-- `mc_sequence_probability` (`simulations.py:195-211`) with the exponential function `ex`; `np.exp(-inf)` is zero. -/
noncomputable def mcSequenceProbabilityF (fl ln ex : ℝ → ℝ) {n : ℕ} (P : Matrix (Fin n) (Fin n) ℝ)
    (w : List (Fin n)) : ℝ :=
  match sequenceLoopF fl ln P 0 w with
  | some wp => ex wp
  | none => 0

/-- `MarkovChain.sequence_probability` (`markov_chain.py:1788-1806`). -/
noncomputable def sequenceProbabilityF (fl ln ex : ℝ → ℝ) (c : MC ℝ) (sequence : PyVal ℝ) : R ℝ :=
  validateSequence sequence c.states >>= fun l => pure (mcSequenceProbabilityF fl ln ex c.p (toStates c.n l))

end Verif
