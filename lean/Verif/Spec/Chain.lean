import Mathlib.Data.Matrix.Mul
import Mathlib.Algebra.Order.Field.Basic
import Mathlib.Algebra.BigOperators.Fin
import Mathlib.Algebra.BigOperators.Ring.Finset
import Mathlib.Algebra.Order.BigOperators.Group.Finset
import Mathlib.Data.Fintype.Card
import Mathlib.Logic.Relation

/-!
# Specification vocabulary: finite Markov chains

Nothing in this file refers to the code of `/repo`. It fixes the textbook meaning of the
words used in `properties.jsonl`.
-/

namespace Verif

variable {K : Type*} [Field K] [LinearOrder K] [IsStrictOrderedRing K]
variable {ι κ : Type*} [Fintype ι] [Fintype κ]

/-- Every row of `P` is a probability distribution (`P` need not be square). -/
def IsStochastic (P : ι → κ → K) : Prop :=
  (∀ i j, 0 ≤ P i j) ∧ ∀ i, ∑ j, P i j = 1

/-- `d` is a probability distribution. -/
def IsDist (d : ι → K) : Prop := (∀ i, 0 ≤ d i) ∧ ∑ i, d i = 1

/-- `d` is invariant under one step of the chain. -/
def IsInvariant (P : ι → ι → K) (d : ι → K) : Prop := ∀ j, ∑ i, d i * P i j = d j

/-- `d` is a stationary distribution. -/
def IsStationary (P : ι → ι → K) (d : ι → K) : Prop := IsDist d ∧ IsInvariant P d

instance (P : ι → κ → K) : Decidable (IsStochastic P) := by
  unfold IsStochastic; infer_instance

instance (d : ι → K) : Decidable (IsDist d) := by
  unfold IsDist; infer_instance

instance (P : ι → ι → K) (d : ι → K) : Decidable (IsInvariant P d) := by
  unfold IsInvariant; infer_instance

instance (P : ι → ι → K) (d : ι → K) : Decidable (IsStationary P d) := by
  unfold IsStationary; infer_instance

/-- The probability that a chain started at the head of the list follows the list. -/
def walkProb (P : ι → ι → K) : List ι → K
  | [] => 1
  | [_] => 1
  | a :: b :: t => P a b * walkProb P (b :: t)

/-- Expectation of `f` over the next `k` states `[X₁, …, X_k]` of the chain started at `i`:
the path measure of the chain, unrolled one transition at a time. -/
def expect (P : ι → ι → K) : ℕ → ι → (List ι → K) → K
  | 0, _, f => f []
  | k + 1, i, f => ∑ j, P i j * expect P k j (fun w => f (j :: w))

/-- Probability of an event about the next `k` states. -/
def prob (P : ι → ι → K) (k : ℕ) (i : ι) (E : List ι → Prop) [DecidablePred E] : K :=
  expect P k i (fun w => if E w then 1 else 0)

/-! ## Transition graph -/

/-- A transition of positive probability. -/
def Edge (P : ι → ι → K) (i j : ι) : Prop := 0 < P i j

instance (P : ι → ι → K) (i j : ι) : Decidable (Edge P i j) := by
  unfold Edge; infer_instance

/-- `j` can be reached from `i` (in zero or more steps). -/
def Reach (P : ι → ι → K) (i j : ι) : Prop := Relation.ReflTransGen (Edge P) i j

/-- `j` can be reached from `i` in exactly `k` steps. -/
inductive ReachIn (P : ι → ι → K) : ℕ → ι → ι → Prop
  | refl (i) : ReachIn P 0 i i
  | step {k i j l} : ReachIn P k i j → Edge P j l → ReachIn P (k + 1) i l

/-- `i` and `j` communicate. -/
def Communicate (P : ι → ι → K) (i j : ι) : Prop := Reach P i j ∧ Reach P j i

/-- Every state can reach every state. -/
def Irreducible (P : ι → ι → K) : Prop := ∀ i j, Reach P i j

/-- A state is recurrent (finite chain) when every state it reaches can reach it back. -/
def RecurrentState (P : ι → ι → K) (i : ι) : Prop := ∀ j, Reach P i j → Reach P j i

/-- A set of states that no transition leaves. -/
def ClosedSet (P : ι → ι → K) (S : ι → Prop) : Prop := ∀ i j, S i → Edge P i j → S j

/-- Some `k`-step law has full support from every state. -/
def Primitive (P : ι → ι → K) : Prop := ∃ k, 0 < k ∧ ∀ i j, ReachIn P k i j

/-- An absorbing state. -/
def AbsorbingState (P : ι → ι → K) (i : ι) : Prop := P i i = 1

/-- An absorbing chain: from every state an absorbing state can be reached (and there is one). -/
def AbsorbingChain (P : ι → ι → K) : Prop :=
  (∃ a, AbsorbingState P a) ∧ ∀ i, ∃ a, AbsorbingState P a ∧ Reach P i a

/-- `d` is the period of state `i`: the greatest common divisor of the lengths of all closed
walks through `i`. -/
def IsPeriodOf (P : ι → ι → K) (i : ι) (d : ℕ) : Prop :=
  (∀ k, ReachIn P k i i → d ∣ k) ∧ ∀ e, (∀ k, ReachIn P k i i → e ∣ k) → e ∣ d

/-- Detailed balance. -/
def DetailedBalance (P : ι → ι → K) (d : ι → K) : Prop := ∀ i j, d i * P i j = d j * P j i

end Verif
