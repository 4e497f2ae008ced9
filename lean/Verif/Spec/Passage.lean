import Verif.Spec.Chain

/-!
# Specification vocabulary: hitting and passage quantities

Nothing in this file refers to the code of `/repo`.
-/

namespace Verif

variable {K : Type*} [Field K] [LinearOrder K] [IsStrictOrderedRing K]
variable {ι : Type*} [Fintype ι]

/-- An ergodic chain: irreducible and aperiodic. -/
def Ergodic (P : ι → ι → K) : Prop := Irreducible P ∧ ∀ i, IsPeriodOf P i 1

/-- The chain with law `x` run backwards in time. -/
def reversal (P : ι → ι → K) (x : ι → K) (i j : ι) : K := x j * P j i / x i

/-- `q` is the probability of visiting `B` before `A`: the conditions of first-step analysis. -/
def IsCommittor (P : ι → ι → K) (A B : ι → Prop) (q : ι → K) : Prop :=
  (∀ i, A i → q i = 0) ∧ (∀ i, B i → q i = 1) ∧ (∀ i, 0 ≤ q i ∧ q i ≤ 1) ∧
  ∀ i, ¬ A i → ¬ B i → q i = ∑ j, P i j * q j

/-- `t` solves the first-step equations of the mean time until `S` is visited. -/
def IsPassageTime (P : ι → ι → K) (S : ι → Prop) (t : ι → K) : Prop :=
  (∀ i, S i → t i = 0) ∧ ∀ i, ¬ S i → t i = 1 + ∑ j, P i j * t j

/-- `h` solves the first-step equations of the probability that `S` is visited. -/
def IsHittingSolution (P : ι → ι → K) (S : ι → Prop) (h : ι → K) : Prop :=
  (∀ i, S i → h i = 1) ∧ ∀ i, ¬ S i → h i = ∑ j, P i j * h j

/-- `h` is the smallest nonnegative solution, the probability that `S` is ever visited. -/
def IsHittingProbability (P : ι → ι → K) (S : ι → Prop) (h : ι → K) : Prop :=
  IsHittingSolution P S h ∧ (∀ i, 0 ≤ h i) ∧
  ∀ g, IsHittingSolution P S g → (∀ i, 0 ≤ g i) → ∀ i, h i ≤ g i

/-- `r` is the mean time until `S` is first visited: infinite exactly where `S` is missed with
positive probability; elsewhere it is zero on `S` and solves the first-step equations. -/
def IsHittingTime (P : ι → ι → K) (S : ι → Prop) (r : ι → Option K) : Prop :=
  (∀ h, IsHittingProbability P S h → ∀ i, r i = none ↔ h i < 1) ∧
  (∀ i, S i → r i = some 0) ∧
  ∀ i, ¬ S i → ∀ t, r i = some t →
    (∀ j, 0 < P i j → r j ≠ none) ∧ t = 1 + ∑ j, P i j * (r j).getD 0

/-- `f` solves the first-step equations of the probability that `j` is visited at some time after
the start. -/
def IsReturnSolution [DecidableEq ι] (P : ι → ι → K) (j : ι) (f : ι → K) : Prop :=
  ∀ i, f i = ∑ k, P i k * if k = j then 1 else f k

/-- `f` is the smallest nonnegative solution, the probability that `j` is visited at some time after
the start. -/
def IsReturnProbability [DecidableEq ι] (P : ι → ι → K) (j : ι) (f : ι → K) : Prop :=
  IsReturnSolution P j f ∧ (∀ i, 0 ≤ f i) ∧
  ∀ g, IsReturnSolution P j g → (∀ i, 0 ≤ g i) → ∀ i, f i ≤ g i

/-- The path visits `S`. -/
def Visits (S : ι → Prop) (w : List ι) : Prop := ∃ a ∈ w, S a

/-- The path visits `B`, and does not visit `A` before. -/
def VisitsBefore (A B : ι → Prop) (w : List ι) : Prop :=
  ∃ u a v, w = u ++ a :: v ∧ B a ∧ ∀ x ∈ u, ¬ A x

/-- The number of moves along the path before the first visit of `S`, or all of them if there is no
visit. -/
def timeTo (S : ι → Prop) [DecidablePred S] : List ι → ℕ
  | [] => 0
  | [_] => 0
  | a :: b :: t => if S a then 0 else 1 + timeTo S (b :: t)

end Verif
