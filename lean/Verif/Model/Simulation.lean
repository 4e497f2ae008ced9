import Verif.Model.Measures
import Mathlib.Analysis.SpecialFunctions.Log.Basic

/-!
# Simulation, prediction and sequence probabilities of a chain

Models the functions of `/repo/pydtmc/simulations.py` on Markov chains. The random number
generator is a parameter: `choice t w` is the index returned by the `t`-th call of `rng.choice` with
weights `w`, and `start` is the value returned by `rng.randint`. `Verif.Model.Seeds` adds the seeds.
-/

namespace Verif

variable {K : Type} [Field K] [LinearOrder K]

/-- The results of the successive calls of `rng.choice`. -/
abbrev Choice (K : Type) (n : ℕ) := ℕ → (Fin n → K) → Fin n

/-- An index that has been found in a list of `n` labels. -/
def asState (n k : ℕ) : R (Fin n) := if h : k < n then pure ⟨k, h⟩ else throw .valueError

/-- `None if v is None else validate_label(v, labels)` (`markov_chain.py:1827`). -/
def optionalLabel (v : PyVal K) (labels : List String) (n : ℕ) : R (Option (Fin n)) :=
  match v with
  | .none => pure none
  | v => validateLabel v labels >>= fun k => asState n k >>= fun i => pure (some i)

/-- The sequence that is returned: indices or labels (`markov_chain.py:1835-1838`). -/
inductive Output
  | indices (l : List ℕ)
  | labels (l : List String)
deriving DecidableEq

/-- `value if output_indices else [*map(states.__getitem__, value)]`
(`markov_chain.py:1735-1738`, `:1835-1838`). -/
def render {n : ℕ} (names : List String) (asIndices : Bool) (w : List (Fin n)) : Output :=
  if asIndices then .indices (w.map Fin.val) else .labels (w.map fun i : Fin n => names.getD i.val "")

/-- The loop of `mc_simulate` (`simulations.py:222-229`): the states appended after `i`, with `k`
iterations left and `t` calls of the generator made. -/
def simulateLoop {n : ℕ} (choice : Choice K n) (P : Matrix (Fin n) (Fin n) K)
    (final : Option (Fin n)) : ℕ → ℕ → Fin n → List (Fin n)
  | 0, _, _ => []
  | k + 1, t, i =>
    let j := choice t (P i)
    if final = some j then [j] else j :: simulateLoop choice P final k (t + 1) j

/-- `mc_simulate` (`simulations.py:214-231`). -/
def mcSimulate {n : ℕ} (choice : Choice K n) (P : Matrix (Fin n) (Fin n) K) (steps : ℕ)
    (i : Fin n) (final : Option (Fin n)) : List (Fin n) :=
  i :: simulateLoop choice P final steps 0 i

/-- `MarkovChain.simulate` (`markov_chain.py:1809-1838`). -/
def simulate (c : MC K) (choice : Choice K c.n) (start : Fin c.n)
    (steps initialState finalState outputIndices : PyVal K) : R Output :=
  validateInteger steps (some (2, false)) none >>= fun s =>
  optionalLabel initialState c.states c.n >>= fun i =>
  optionalLabel finalState c.states c.n >>= fun f =>
  validateBoolean outputIndices >>= fun b =>
  pure (render c.states b (mcSimulate choice c.p s.toNat (i.getD start) f))

/-- `MarkovChain.next` (`markov_chain.py:1682-1707`); the single state is returned as a sequence
with one element. -/
def next (c : MC K) (choice : Choice K c.n) (initialState outputIndex : PyVal K) : R Output :=
  validateLabel initialState c.states >>= fun k =>
  asState c.n k >>= fun i =>
  validateBoolean outputIndex >>= fun b =>
  pure (render c.states b [(mcSimulate choice c.p 1 i none).getLastD i])

/-- `np.argwhere(d == np.max(d))` (`simulations.py:165`). -/
def argMaxes {n : ℕ} (d : Fin n → K) : List (Fin n) :=
  (List.finRange n).filter fun j => decide (∀ i, d i ≤ d j)

/-- The loop of `mc_predict` (`simulations.py:162-171`). -/
def predictLoop {n : ℕ} (P : Matrix (Fin n) (Fin n) K) : ℕ → Fin n → Option (List (Fin n))
  | 0, _ => some []
  | k + 1, i =>
    match argMaxes (P i) with
    | [j] => (predictLoop P k j).map (j :: ·)
    | _ => none

/-- `mc_predict` (`simulations.py:155-173`). -/
def mcPredict {n : ℕ} (P : Matrix (Fin n) (Fin n) K) (steps : ℕ) (i : Fin n) :
    Option (List (Fin n)) := (predictLoop P steps i).map (i :: ·)

/-- `MarkovChain.predict` (`markov_chain.py:1709-1738`). -/
def predict (c : MC K) (steps initialState outputIndices : PyVal K) : R (Option Output) :=
  validateInteger steps (some (0, true)) none >>= fun s =>
  validateLabel initialState c.states >>= fun k =>
  asState c.n k >>= fun i =>
  validateBoolean outputIndices >>= fun b =>
  pure ((mcPredict c.p s.toNat i).map (render c.states b))

/-- The loop of `mc_sequence_probability` (`simulations.py:201-207`); `none` is `-inf`. -/
noncomputable def sequenceLoop {n : ℕ} (P : Matrix (Fin n) (Fin n) ℝ) :
    ℝ → List (Fin n) → Option ℝ
  | wp, i :: j :: t => if 0 < P i j then sequenceLoop P (wp + Real.log (P i j)) (j :: t) else none
  | wp, _ => some wp

/-- `mc_sequence_probability` (`simulations.py:195-211`); `np.exp(-inf)` is zero. -/
noncomputable def mcSequenceProbability {n : ℕ} (P : Matrix (Fin n) (Fin n) ℝ)
    (w : List (Fin n)) : ℝ :=
  match sequenceLoop P 0 w with
  | some wp => Real.exp wp
  | none => 0

/-- `MarkovChain.sequence_probability` (`markov_chain.py:1788-1806`). -/
noncomputable def sequenceProbability (c : MC ℝ) (sequence : PyVal ℝ) : R ℝ :=
  validateSequence sequence c.states >>= fun l => pure (mcSequenceProbability c.p (toStates c.n l))

end Verif
