import Verif.Model.Rounded
import Verif.Model.Simulation

/-!
# Simulation with rounded arithmetic

`hmm_simulate` (`/repo/pydtmc/simulations.py`) with arithmetic operations that may round, and the selection of an
index by `rng.choice` of numpy, which is not part of the repository: cumulative sums, divided by the last one, and the
first of them that exceeds the draw.
-/

namespace Verif

variable {K : Type} [Field K] [LinearOrder K] {n k : ℕ}

/-- The entry of a row at a position. -/
def rowEntry (w : Fin n → K) (j : ℕ) : K := if h : j < n then w ⟨j, h⟩ else 0

/-- `np.cumsum` of a row (`simulations.py:120`, `:124`): one addition per entry. -/
def cumsumF (F : Arith K) (w : Fin n → K) : ℕ → K
  | 0 => rowEntry w 0
  | j + 1 => F.add (cumsumF F w j) (rowEntry w (j + 1))

/-- A row of `pc` or `ec` (`simulations.py:120-121`, `:124-125`). -/
def cumulativeF (F : Arith K) (w : Fin n → K) (j : ℕ) : K := F.div (cumsumF F w j) (cumsumF F w (n - 1))

/-- The loop `for j in range(n - 2, -1, -1)` (`simulations.py:132-135`, `:140-143`). -/
def pickLoopF (F : Arith K) (w : Fin n → K) (u : K) : ℕ → ℕ
  | 0 => 0
  | m + 1 => if cumulativeF F w m < u then m + 1 else pickLoopF F w u m

theorem pickLoopF_le (F : Arith K) (w : Fin n → K) (u : K) (m : ℕ) : pickLoopF F w u m ≤ m := by
  induction m with
  | zero => exact le_rfl
  | succ m ih =>
    unfold pickLoopF
    split
    · exact le_rfl
    · omega

/-- The index selected by the draw `u` (`simulations.py:129-135`). -/
def pickF (F : Arith K) (w : Fin n → K) (u : K) (h : 0 < n) : Fin n :=
  ⟨pickLoopF F w u (n - 1), by have := pickLoopF_le F w u (n - 1); omega⟩

/-- The loop of `hmm_simulate` (`simulations.py:127-150`): the pairs appended after state `s`. -/
def hmmSimulateLoopF (F : Arith K) (P : Matrix (Fin n) (Fin n) K) (E : Matrix (Fin n) (Fin k) K) (hn : 0 < n)
    (hk : 0 < k) (pr er : ℕ → K) (finalState : Option (Fin n)) (finalSymbol : Option (Fin k)) :
    ℕ → ℕ → Fin n → List (Fin n × Fin k)
  | 0, _, _ => []
  | m + 1, t, s =>
    let s' := pickF F (P s) (pr t) hn
    let y := pickF F (E s') (er t) hk
    if finalState = some s' ∨ finalSymbol = some y then [(s', y)]
    else (s', y) :: hmmSimulateLoopF F P E hn hk pr er finalState finalSymbol m (t + 1) s'

/-- `hmm_simulate` (`simulations.py:109-152`). -/
def hmmSimulateF (F : Arith K) (P : Matrix (Fin n) (Fin n) K) (E : Matrix (Fin n) (Fin k) K) (hn : 0 < n)
    (hk : 0 < k) (choice : Choice K k) (pr er : ℕ → K) (steps : ℕ) (s : Fin n)
    (finalState : Option (Fin n)) (finalSymbol : Option (Fin k)) : List (Fin n × Fin k) :=
  (s, choice 0 (E s)) :: hmmSimulateLoopF F P E hn hk pr er finalState finalSymbol steps 0 s

/-- `HiddenMarkovModel.simulate` with `output_indices=True` (`hidden_markov_model.py:448-481`). -/
def HMM.simulateF (F : Arith K) (m : HMM K) (hn : 0 < m.n) (hk : 0 < m.k) (choice : Choice K m.k) (pr er : ℕ → K)
    (start : Fin m.n) (steps initialState finalState finalSymbol : PyVal K) :
    R (List (Fin m.n × Fin m.k)) :=
  validateInteger steps (some (2, false)) none >>= fun s =>
  optionalLabel initialState m.states m.n >>= fun i =>
  optionalLabel finalState m.states m.n >>= fun f =>
  optionalLabel finalSymbol m.symbols m.k >>= fun g =>
  pure (hmmSimulateF F m.p m.e hn hk choice pr er s.toNat (i.getD start) f g)

/-- `rng.choice(n, size=1, p=w)` of numpy with the draws `u` (called at `simulations.py:117`, `:225`). -/
def choiceF (F : Arith K) [NeZero n] (u : ℕ → K) : Choice K n := fun t w =>
  ((List.finRange n).find? fun j => decide (u t < cumulativeF F w j.val)).getD 0

end Verif
