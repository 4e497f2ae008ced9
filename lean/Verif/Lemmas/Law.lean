import Verif.Spec.Chain
import Mathlib.Probability.ProductMeasure
import Mathlib.MeasureTheory.Measure.Lebesgue.Basic

/-!
# The law of a process that is driven by independent draws

A process that takes its steps from independent draws, each step with the probabilities of a matrix,
has the law of the chain with this matrix.
-/

set_option linter.unusedSectionVars false

namespace Verif

open MeasureTheory Finset

variable {ι Ω : Type*} [Fintype ι] [DecidableEq ι] [MeasurableSpace Ω]

/-- The states after the start, where the step number `t` uses the draw number `t`. -/
def runFrom (step : ι → Ω → ι) (u : ℕ → Ω) : ℕ → ℕ → ι → List ι
  | 0, _, _ => []
  | k + 1, t, i => step i (u t) :: runFrom step u k (t + 1) (step i (u t))

theorem runFrom_set (step : ι → Ω → ι) (k t : ℕ) (i : ι) (E : List ι → Prop) :
    {u : ℕ → Ω | E (runFrom step u (k + 1) t i)} =
      ⋃ j, {u | step i (u t) = j} ∩ {u | E (j :: runFrom step u k (t + 1) j)} := by
  ext u
  simp only [Set.mem_ofPred_eq, Set.mem_iUnion, Set.mem_inter_iff, exists_eq_left']
  rfl

theorem measurable_step {step : ι → Ω → ι} (hm : ∀ i j, MeasurableSet {ω | step i ω = j}) (t : ℕ) (i j : ι) :
    MeasurableSet {u : ℕ → Ω | step i (u t) = j} := by
  have h : Measurable fun u : ℕ → Ω => u t := measurable_pi_apply t
  exact h (hm i j)

theorem measurable_runFrom {step : ι → Ω → ι} (hm : ∀ i j, MeasurableSet {ω | step i ω = j}) (k : ℕ) :
    ∀ (t : ℕ) (i : ι) (E : List ι → Prop), MeasurableSet {u : ℕ → Ω | E (runFrom step u k t i)} := by
  induction k with
  | zero =>
    intro t i E
    by_cases h : E []
    · convert MeasurableSet.univ
      exact Set.ext fun u => ⟨fun _ => trivial, fun _ => h⟩
    · convert MeasurableSet.empty
      exact Set.ext fun u => ⟨fun h' => h h', fun h' => absurd h' (Set.notMem_empty _)⟩
  | succ k ih =>
    intro t i E
    rw [runFrom_set]
    exact MeasurableSet.iUnion fun j => (measurable_step hm t i j).inter
      (ih (t + 1) j fun w => E (j :: w))

theorem prob_succ {K : Type*} [Field K] [LinearOrder K] [IsStrictOrderedRing K] (Q : ι → ι → K) (k : ℕ)
    (i : ι) (E : List ι → Prop) [DecidablePred E] :
    prob Q (k + 1) i E = ∑ j, Q i j * prob Q k j fun w => E (j :: w) := rfl

theorem prob_nonneg' {Q : ι → ι → ℝ} (hQ : ∀ i j, 0 ≤ Q i j) (k : ℕ) : ∀ (i : ι) (E : List ι → Prop)
    [DecidablePred E], 0 ≤ prob Q k i E := by
  induction k with
  | zero =>
    intro i E _
    change 0 ≤ if E [] then (1 : ℝ) else 0
    split_ifs <;> norm_num
  | succ k ih =>
    intro i E _
    rw [prob_succ]
    exact sum_nonneg fun j _ => mul_nonneg (hQ i j) (ih j _)

theorem law_of_run_box {step : ι → Ω → ι} {ν : Measure Ω} [IsProbabilityMeasure ν] {Q : ι → ι → ℝ}
    (hQ : ∀ i j, 0 ≤ Q i j) (hm : ∀ i j, MeasurableSet {ω | step i ω = j})
    (hν : ∀ i j, ν {ω | step i ω = j} = ENNReal.ofReal (Q i j)) (k : ℕ) :
    ∀ (t : ℕ) (i : ι) (E : List ι → Prop) [DecidablePred E] (s : Finset ℕ) (B : ℕ → Set Ω),
      (∀ l ∈ s, l < t) → (∀ l ∈ s, MeasurableSet (B l)) →
      Measure.infinitePi (fun _ : ℕ => ν) (Set.pi s B ∩ {u | E (runFrom step u k t i)}) =
        (∏ l ∈ s, ν (B l)) * ENNReal.ofReal (prob Q k i E) := by
  induction k with
  | zero =>
    intro t i E _ s B hs hB
    change Measure.infinitePi (fun _ : ℕ => ν) (Set.pi s B ∩ {u | E []}) =
      _ * ENNReal.ofReal (if E [] then 1 else 0)
    by_cases h : E []
    · rw [if_pos h, ENNReal.ofReal_one, mul_one, ← Measure.infinitePi_pi _ hB]
      congr 1
      ext u
      simp [h]
    · rw [if_neg h, ENNReal.ofReal_zero, mul_zero]
      convert measure_empty (μ := Measure.infinitePi fun _ : ℕ => ν)
      ext u
      simp [h]
  | succ k ih =>
    intro t i E _ s B hs hB
    have ht : t ∉ s := fun h => (hs t h).false
    have hset : ∀ j, Set.pi s B ∩ ({u | step i (u t) = j} ∩ {u | E (j :: runFrom step u k (t + 1) j)}) =
        Set.pi (insert t s : Finset ℕ) (Function.update B t {ω | step i ω = j}) ∩
          {u | E (j :: runFrom step u k (t + 1) j)} := by
      intro j
      ext u
      simp only [Set.mem_inter_iff, Set.mem_pi, Set.mem_ofPred_eq, mem_coe, mem_insert, forall_eq_or_imp,
        Function.update_self]
      have : (∀ l ∈ s, u l ∈ B l) ↔ ∀ l ∈ s, u l ∈ Function.update B t {ω | step i ω = j} l := by
        refine forall₂_congr fun l hl => ?_
        rw [Function.update_of_ne (by rintro rfl; exact ht hl)]
      rw [this]
      tauto
    have hone : ∀ j, Measure.infinitePi (fun _ : ℕ => ν)
        (Set.pi s B ∩ ({u | step i (u t) = j} ∩ {u | E (j :: runFrom step u k (t + 1) j)})) =
        (∏ l ∈ s, ν (B l)) * ENNReal.ofReal (Q i j * prob Q k j fun w => E (j :: w)) := by
      intro j
      rw [hset, ih (t + 1) j (fun w => E (j :: w)) (insert t s) _ ?_ ?_, prod_insert ht,
        Function.update_self, hν, ENNReal.ofReal_mul (hQ i j)]
      · have : ∏ l ∈ s, ν (Function.update B t {ω | step i ω = j} l) = ∏ l ∈ s, ν (B l) := by
          refine prod_congr rfl fun l hl => ?_
          rw [Function.update_of_ne (by rintro rfl; exact ht hl)]
        rw [this]
        ring
      · intro l hl
        rcases mem_insert.1 hl with rfl | hl
        · omega
        · have := hs l hl
          omega
      · intro l hl
        rcases mem_insert.1 hl with rfl | hl'
        · rw [Function.update_self]
          exact hm i j
        · rw [Function.update_of_ne (by rintro rfl; exact ht hl')]
          exact hB l hl'
    rw [runFrom_set, Set.inter_iUnion, measure_iUnion]
    · rw [tsum_fintype, sum_congr rfl fun j _ => hone j, ← mul_sum, ← ENNReal.ofReal_sum_of_nonneg,
        prob_succ]
      exact fun j _ => mul_nonneg (hQ i j) (prob_nonneg' hQ k _ _)
    · intro j j' hjj
      refine Set.disjoint_left.2 fun u hu hu' => hjj ?_
      exact hu.2.1.symm.trans hu'.2.1
    · intro j
      refine MeasurableSet.inter ?_ ((measurable_step hm t i j).inter
        (measurable_runFrom hm k (t + 1) j fun w => E (j :: w)))
      exact MeasurableSet.pi s.countable_toSet fun l hl => hB l hl

/-- The process has the law of the chain. -/
theorem law_of_run {step : ι → Ω → ι} {ν : Measure Ω} [IsProbabilityMeasure ν] {Q : ι → ι → ℝ}
    (hQ : ∀ i j, 0 ≤ Q i j) (hm : ∀ i j, MeasurableSet {ω | step i ω = j})
    (hν : ∀ i j, ν {ω | step i ω = j} = ENNReal.ofReal (Q i j)) (k t : ℕ) (i : ι) (E : List ι → Prop)
    [DecidablePred E] :
    Measure.infinitePi (fun _ : ℕ => ν) {u | E (runFrom step u k t i)} = ENNReal.ofReal (prob Q k i E) := by
  have := law_of_run_box hQ hm hν k t i E ∅ (fun _ => Set.univ) (by simp) (by simp)
  simpa using this

end Verif
