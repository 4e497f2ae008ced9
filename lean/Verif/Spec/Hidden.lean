import Verif.Spec.Chain

/-!
# Specification vocabulary: hidden Markov models

Nothing in this file refers to the code of `/repo`. The hidden chain starts from a state that emits
nothing; every later state emits one symbol.
-/

namespace Verif

variable {K : Type*} [Field K] [LinearOrder K] [IsStrictOrderedRing K]
variable {ι κ : Type*} [Fintype ι] [Fintype κ] [DecidableEq ι]

/-- The probability that the states of a path emit the given symbols. -/
def emitProb (E : ι → κ → K) : List ι → List κ → K
  | [], [] => 1
  | s :: w, y :: ys => E s y * emitProb E w ys
  | _, _ => 0

/-- The probability of a sequence of symbols: the sum over all hidden paths of the joint
probability. -/
def likelihood (P : ι → ι → K) (E : ι → κ → K) (init : ι → K) (ys : List κ) : K :=
  ∑ x, init x * expect P ys.length x fun w => emitProb E w ys

/-- The probability of a sequence of symbols together with the event that the state emitting the
symbol number `t` is `s`. -/
def jointAt (P : ι → ι → K) (E : ι → κ → K) (init : ι → K) (ys : List κ) (t : ℕ) (s : ι) : K :=
  ∑ x, init x * expect P ys.length x fun w => if w[t]? = some s then emitProb E w ys else 0

/-- The joint probability of a start state, the path of the later states and the symbols. -/
def jointProb (P : ι → ι → K) (E : ι → κ → K) (init : ι → K) (x : ι) (w : List ι) (ys : List κ) : K :=
  init x * walkProb P (x :: w) * emitProb E w ys

/-- The chain of the pairs of a state and the symbol it emits. -/
def pairChain (P : ι → ι → K) (E : ι → κ → K) (a b : ι × κ) : K := P a.1 b.1 * E b.1 b.2

/-- `l` is a possible run of the hidden chain with its symbols: every transition and every emission
has positive probability. After the start it stops at the first visit of the final state or the first
emission of the final symbol, and otherwise after `steps` transitions. -/
structure IsHiddenRun (P : ι → ι → K) (E : ι → κ → K) (steps : ℕ) (i : ι) (final : ι × κ → Prop)
    (l : List (ι × κ)) : Prop where
  starts : (l.map Prod.fst).head? = some i
  transitions : (l.map Prod.fst).IsChain (Edge P)
  emissions : ∀ q ∈ l, 0 < E q.1 q.2
  short : l.length ≤ steps + 1
  first : ∀ q ∈ l.tail.dropLast, ¬ final q
  stops : l.length = steps + 1 ∨ ∃ q, final q ∧ l.tail.getLast? = some q

end Verif
