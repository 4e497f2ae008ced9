import Mathlib.Algebra.BigOperators.Fin
import Mathlib.Algebra.Order.Field.Basic
import Mathlib.Analysis.SpecialFunctions.Log.Basic

/-!
# Specification vocabulary: statistical tests

Counts of observed events and the textbook statistics.
-/

namespace Verif

open Finset

/-- Number of times that `i`, `s`, `j` are observed in a row. -/
def tripleCount {n : ℕ} (seq : List (Fin n)) (i s j : Fin n) : ℕ :=
  ((range seq.length).filter fun t => seq[t]? = some i ∧ seq[t + 1]? = some s ∧
    seq[t + 2]? = some j).card

/-- Number of transitions from `s` to `j` that are observed in the block number `b` of a sequence divided
into `blocks` blocks of equal length: those whose position `t + 1` lies in
`(b * length / blocks, (b + 1) * length / blocks]`. -/
def blockCount {n : ℕ} (blocks : ℕ) (seq : List (Fin n)) (s : Fin n) (b : ℕ) (j : Fin n) : ℕ :=
  ((range seq.length).filter fun t => seq[t]? = some s ∧ seq[t + 1]? = some j ∧
    b * seq.length < (t + 1) * blocks ∧ (t + 1) * blocks ≤ (b + 1) * seq.length).card

section
variable {K : Type*} [Field K] [LinearOrder K] {ι κ : Type*} [Fintype ι] [Fintype κ]

/-- The expected frequencies of a contingency table whose rows and columns are independent. -/
def independent (T : ι → κ → K) (i : ι) (j : κ) : K :=
  (∑ l, T i l) * (∑ l, T l j) / ∑ r, ∑ l, T r l

/-- Pearson's statistic. -/
def pearson (T : ι → κ → K) : K := ∑ i, ∑ j, (T i j - independent T i j) ^ 2 / independent T i j

/-- Pearson's statistic with the correction of Yates. -/
def yates (T : ι → κ → K) : K :=
  ∑ i, ∑ j, (max 0 (|T i j - independent T i j| - 1 / 2)) ^ 2 / independent T i j

end

/-- The likelihood ratio statistic of the counts `f` of the transitions of a sequence, for the
transition probabilities `p`. -/
noncomputable def likelihoodRatio {n : ℕ} (p : Fin n → Fin n → ℝ) (f : Fin n → Fin n → ℕ) : ℝ :=
  2 * ∑ i, ∑ j, (f i j : ℝ) * Real.log (f i j / ((∑ l, f i l : ℕ) * p i j))

end Verif
