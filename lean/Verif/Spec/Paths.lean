import Verif.Spec.Chain

/-!
# Specification vocabulary: functionals of paths

Nothing in this file refers to the code of `/repo`.
-/

namespace Verif

variable {K : Type*} [Field K] [LinearOrder K] [IsStrictOrderedRing K]
variable {ι : Type*} [Fintype ι] [DecidableEq ι]

/-- The number of moves from `i` directly to `j` along a path. -/
def countMoves (i j : ι) : List ι → ℕ
  | [] => 0
  | [_] => 0
  | a :: b :: t => (if a = i ∧ b = j then 1 else 0) + countMoves i j (b :: t)

/-- Expected number of moves from `i` to `j` in the first `k` steps of the chain with initial
distribution `d`. -/
def expectedMoves (P : ι → ι → K) (d : ι → K) (k : ℕ) (i j : ι) : K :=
  ∑ s, d s * expect P k s fun w => (countMoves i j (s :: w) : K)

/-- The path visits `S` at its end and not before. -/
def FirstVisitAtEnd (S : ι → Prop) : List ι → Prop
  | [] => False
  | [a] => S a
  | a :: b :: t => ¬ S a ∧ FirstVisitAtEnd S (b :: t)

instance FirstVisitAtEnd.decidable (S : ι → Prop) [DecidablePred S] :
    DecidablePred (FirstVisitAtEnd S)
  | [] => isFalse id
  | [a] => inferInstanceAs (Decidable (S a))
  | _ :: b :: t =>
    haveI := FirstVisitAtEnd.decidable S (b :: t)
    inferInstanceAs (Decidable (_ ∧ _))

/-- The sum of the rewards of the states of a path up to the first visit of `S`, exclusive. -/
def rewardBefore (S : ι → Prop) [DecidablePred S] (r : ι → K) (w : List ι) : K :=
  ((w.takeWhile fun s => !decide (S s)).map r).sum

/-- The beginning of a path up to the first element that is final, inclusive. -/
def stopAt (final : ι → Prop) [DecidablePred final] : List ι → List ι
  | [] => []
  | a :: t => if final a then [a] else a :: stopAt final t

/-- `w` is a possible run of the chain from `i` that stops at the first later visit of `final`, and
otherwise after `steps` transitions. -/
structure IsRun (P : ι → ι → K) (steps : ℕ) (i : ι) (final : Option ι) (w : List ι) : Prop where
  starts : w.head? = some i
  possible : w.IsChain (Edge P)
  short : w.length ≤ steps + 1
  first : ∀ f, final = some f → f ∉ w.tail.dropLast
  stops : w.length = steps + 1 ∨ ∃ f, final = some f ∧ w.tail.getLast? = some f

/-- `w` is the most probable continuation of the chain from `i` among those of its length, and no
other one is as probable. -/
def UniqueBest (P : ι → ι → K) (i : ι) (w : List ι) : Prop :=
  ∀ v : List ι, v.length = w.length → v ≠ w → walkProb P (i :: v) < walkProb P (i :: w)

end Verif
