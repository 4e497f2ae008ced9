import Verif.Model.Hidden
import Verif.Model.Simulation

/-!
# Simulations with the checks of the generator

`rng.choice(size, size=1, p=w)` of numpy raises a `ValueError` unless the weights are nonnegative and their sum
is one up to the square root of the machine precision of doubles, `2^-26`. `Verif.Model.Simulation` leaves this
check out; here it is added to the calls of `/repo/pydtmc/simulations.py:117` and `:225`. The errors are not
caught by the library. numpy adds the weights with compensated summation, here the sum is exact.
-/

namespace Verif

variable {K : Type} [Field K] [LinearOrder K]

/-- The weights that `rng.choice` accepts. -/
def choiceAccepts {n : ℕ} (w : Fin n → K) : Bool :=
  decide ((∀ j, 0 ≤ w j) ∧ |∑ j, w j - 1| ≤ 1 / 2 ^ 26)

/-- The loop of `mc_simulate` (`simulations.py:222-229`) with the check of the weights. -/
def checkedLoop {n : ℕ} (choice : Choice K n) (P : Matrix (Fin n) (Fin n) K)
    (final : Option (Fin n)) : ℕ → ℕ → Fin n → R (List (Fin n))
  | 0, _, _ => pure []
  | k + 1, t, i =>
    if choiceAccepts (P i) = true then
      if final = some (choice t (P i)) then pure [choice t (P i)]
      else checkedLoop choice P final k (t + 1) (choice t (P i)) >>= fun l => pure (choice t (P i) :: l)
    else throw .valueError

/-- `mc_simulate` (`simulations.py:214-231`) with the check of the weights. -/
def checkedRun {n : ℕ} (choice : Choice K n) (P : Matrix (Fin n) (Fin n) K) (steps : ℕ)
    (i : Fin n) (final : Option (Fin n)) : R (List (Fin n)) :=
  checkedLoop choice P final steps 0 i >>= fun l => pure (i :: l)

/-- `MarkovChain.simulate` (`markov_chain.py:1809-1838`) with the check of the weights. -/
def simulateChecked (c : MC K) (choice : Choice K c.n) (start : Fin c.n)
    (steps initialState finalState outputIndices : PyVal K) : R Output :=
  validateInteger steps (some (2, false)) none >>= fun s =>
  optionalLabel initialState c.states c.n >>= fun i =>
  optionalLabel finalState c.states c.n >>= fun f =>
  validateBoolean outputIndices >>= fun b =>
  checkedRun choice c.p s.toNat (i.getD start) f >>= fun w =>
  pure (render c.states b w)

/-- `MarkovChain.next` (`markov_chain.py:1682-1707`) with the check of the weights. -/
def nextChecked (c : MC K) (choice : Choice K c.n) (initialState outputIndex : PyVal K) : R Output :=
  validateLabel initialState c.states >>= fun k =>
  asState c.n k >>= fun i =>
  validateBoolean outputIndex >>= fun b =>
  checkedRun choice c.p 1 i none >>= fun w =>
  pure (render c.states b [w.getLastD i])

/-- `HiddenMarkovModel.simulate` with `output_indices=True` (`hidden_markov_model.py:448-481`) and the check of
the weights of the first symbol (`simulations.py:117`). -/
def HMM.simulateChecked (m : HMM K) (hn : 0 < m.n) (hk : 0 < m.k) (choice : Choice K m.k) (pr er : ℕ → K)
    (start : Fin m.n) (steps initialState finalState finalSymbol : PyVal K) :
    R (List (Fin m.n × Fin m.k)) :=
  validateInteger steps (some (2, false)) none >>= fun s =>
  optionalLabel initialState m.states m.n >>= fun i =>
  optionalLabel finalState m.states m.n >>= fun f =>
  optionalLabel finalSymbol m.symbols m.k >>= fun g =>
  if choiceAccepts (m.e (i.getD start)) = true then
    pure (hmmSimulate m.p m.e hn hk choice pr er s.toNat (i.getD start) f g)
  else throw .valueError

end Verif
