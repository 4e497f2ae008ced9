import Verif.Lemmas.Chain
import Verif.Lemmas.Law
import Verif.Spec.Passage
import Mathlib.Topology.Order.MonotoneConvergence
import Mathlib.Topology.Algebra.Order.LiminfLimsup
import Mathlib.Topology.Algebra.Monoid
import Mathlib.Topology.Instances.Real.Lemmas

/-!
# First-step equations and paths

The solutions of the first-step equations are the limits of probabilities and expectations over the
paths of the chain.
-/

set_option linter.unusedSectionVars false

namespace Verif

open Finset Filter Topology
open scoped Classical

variable {ι : Type*} [Fintype ι] {P : ι → ι → ℝ}

theorem expect_succ (P : ι → ι → ℝ) (k : ℕ) (i : ι) (f : List ι → ℝ) :
    expect P (k + 1) i f = ∑ j, P i j * expect P k j fun w => f (j :: w) := rfl

theorem visits_cons (S : ι → Prop) (a : ι) (w : List ι) : Visits S (a :: w) ↔ S a ∨ Visits S w := by
  unfold Visits
  simp

theorem visitsBefore_cons {A B : ι → Prop} (a : ι) (w : List ι) :
    VisitsBefore A B (a :: w) ↔ B a ∨ (¬ A a ∧ VisitsBefore A B w) := by
  constructor
  · rintro ⟨u, b, v, h, hb, hu⟩
    cases u with
    | nil =>
      rw [List.nil_append, List.cons.injEq] at h
      rw [h.1]
      exact Or.inl hb
    | cons x u =>
      rw [List.cons_append, List.cons.injEq] at h
      rw [h.1]
      exact Or.inr ⟨hu x (List.mem_cons_self ..), u, b, v, h.2, hb,
        fun y hy => hu y (List.mem_cons_of_mem _ hy)⟩
  · rintro (h | ⟨h, u, b, v, hw, hb, hu⟩)
    · exact ⟨[], a, w, rfl, h, by simp⟩
    · refine ⟨a :: u, b, v, by rw [hw]; rfl, hb, fun y hy => ?_⟩
      rcases List.mem_cons.1 hy with rfl | hy
      · exact h
      · exact hu y hy

theorem not_visitsBefore_nil {A B : ι → Prop} : ¬ VisitsBefore A B [] := by
  rintro ⟨u, a, v, h, -⟩
  simp at h

/-! ## Probability of a visit -/

/-- The probability of a visit of `B` before `A` during the first `k` steps. -/
noncomputable def visitProb (P : ι → ι → ℝ) (A B : ι → Prop) (k : ℕ) (i : ι) : ℝ :=
  prob P k i fun w => VisitsBefore A B (i :: w)

theorem prob_true (hP : IsStochastic P) (k : ℕ) (i : ι) : prob P k i (fun _ => True) = 1 := by
  unfold prob
  simp only [if_true]
  exact expect_const hP k i 1

theorem prob_congr' {k : ℕ} {i : ι} {E E' : List ι → Prop} [h1 : DecidablePred E] [h2 : DecidablePred E']
    (h : ∀ w, E w ↔ E' w) : prob P k i E = prob P k i E' := by
  have : E = E' := funext fun w => propext (h w)
  subst this
  rw [Subsingleton.elim h1 h2]

theorem visitProb_target (hP : IsStochastic P) {A B : ι → Prop} {i : ι} (hi : B i) (k : ℕ) :
    visitProb P A B k i = 1 := by
  rw [← prob_true hP k i]
  exact prob_congr' fun w => by simp [visitsBefore_cons, hi]

theorem visitProb_avoid {A B : ι → Prop} {i : ι} (hi : A i) (hb : ¬ B i) (k : ℕ) :
    visitProb P A B k i = 0 := by
  rw [← expect_zero P k i]
  unfold visitProb prob
  congr 1
  funext w
  rw [if_neg]
  simp [visitsBefore_cons, hi, hb]

theorem visitProb_zero {A B : ι → Prop} {i : ι} (hb : ¬ B i) : visitProb P A B 0 i = 0 := by
  unfold visitProb prob
  change (if VisitsBefore A B [i] then (1 : ℝ) else 0) = 0
  rw [if_neg]
  simp [visitsBefore_cons, hb, not_visitsBefore_nil]

theorem visitProb_succ {A B : ι → Prop} {i : ι} (ha : ¬ A i) (hb : ¬ B i) (k : ℕ) :
    visitProb P A B (k + 1) i = ∑ j, P i j * visitProb P A B k j := by
  unfold visitProb
  rw [prob_succ]
  refine sum_congr rfl fun j _ => ?_
  congr 1
  exact prob_congr' fun w => by rw [visitsBefore_cons]; simp [ha, hb]

theorem visitProb_nonneg (hP : IsStochastic P) (A B : ι → Prop) (k : ℕ) (i : ι) :
    0 ≤ visitProb P A B k i :=
  prob_nonneg' hP.1 _ _ _

theorem visitProb_le (hP : IsStochastic P) {A B : ι → Prop} {q : ι → ℝ} (h0 : ∀ i, 0 ≤ q i)
    (h1 : ∀ i, B i → 1 ≤ q i) (h : ∀ i, ¬ A i → ¬ B i → ∑ j, P i j * q j ≤ q i) (k : ℕ) :
    ∀ i, visitProb P A B k i ≤ q i := by
  induction k with
  | zero =>
    intro i
    by_cases hb : B i
    · rw [visitProb_target hP hb]
      exact h1 i hb
    · rw [visitProb_zero hb]
      exact h0 i
  | succ k ih =>
    intro i
    by_cases hb : B i
    · rw [visitProb_target hP hb]
      exact h1 i hb
    by_cases ha : A i
    · rw [visitProb_avoid ha hb]
      exact h0 i
    rw [visitProb_succ ha hb]
    exact (sum_le_sum fun j _ => mul_le_mul_of_nonneg_left (ih j) (hP.1 i j)).trans (h i ha hb)

theorem visitProb_le_one (hP : IsStochastic P) (A B : ι → Prop) (k : ℕ) (i : ι) :
    visitProb P A B k i ≤ 1 := by
  refine visitProb_le hP (q := fun _ => 1) (fun _ => zero_le_one) (fun _ _ => le_rfl) (fun i _ _ => ?_) k i
  simp [hP.2 i]

theorem visitProb_mono (hP : IsStochastic P) (A B : ι → Prop) (k : ℕ) :
    ∀ i, visitProb P A B k i ≤ visitProb P A B (k + 1) i := by
  induction k with
  | zero =>
    intro i
    by_cases hb : B i
    · rw [visitProb_target hP hb, visitProb_target hP hb]
    · rw [visitProb_zero hb]
      exact visitProb_nonneg hP A B 1 i
  | succ k ih =>
    intro i
    by_cases hb : B i
    · rw [visitProb_target hP hb, visitProb_target hP hb]
    by_cases ha : A i
    · rw [visitProb_avoid ha hb, visitProb_avoid ha hb]
    rw [visitProb_succ ha hb, visitProb_succ ha hb]
    exact sum_le_sum fun j _ => mul_le_mul_of_nonneg_left (ih j) (hP.1 i j)

/-- The probability of a visit of `B` before `A`. -/
noncomputable def visitLimit (P : ι → ι → ℝ) (A B : ι → Prop) (i : ι) : ℝ := ⨆ k, visitProb P A B k i

theorem visitProb_tendsto (hP : IsStochastic P) (A B : ι → Prop) (i : ι) :
    Tendsto (fun k => visitProb P A B k i) atTop (𝓝 (visitLimit P A B i)) :=
  tendsto_atTop_ciSup (monotone_nat_of_le_succ fun k => visitProb_mono hP A B k i)
    ⟨1, by rintro _ ⟨k, rfl⟩; exact visitProb_le_one hP A B k i⟩

theorem visitProb_le_limit (hP : IsStochastic P) (A B : ι → Prop) (k : ℕ) (i : ι) :
    visitProb P A B k i ≤ visitLimit P A B i :=
  (monotone_nat_of_le_succ fun k => visitProb_mono hP A B k i).ge_of_tendsto
    (visitProb_tendsto hP A B i) k

theorem visitLimit_target (hP : IsStochastic P) {A B : ι → Prop} {i : ι} (hi : B i) :
    visitLimit P A B i = 1 :=
  tendsto_nhds_unique (visitProb_tendsto hP A B i)
    (by simp only [visitProb_target hP hi]; exact tendsto_const_nhds)

theorem visitLimit_avoid (hP : IsStochastic P) {A B : ι → Prop} {i : ι} (hi : A i) (hb : ¬ B i) :
    visitLimit P A B i = 0 :=
  tendsto_nhds_unique (visitProb_tendsto hP A B i)
    (by simp only [visitProb_avoid hi hb]; exact tendsto_const_nhds)

theorem tendsto_step {f : ℕ → ι → ℝ} {g : ι → ℝ} (P : ι → ι → ℝ)
    (h : ∀ i, Tendsto (fun k => f k i) atTop (𝓝 (g i))) (i : ι) :
    Tendsto (fun k => ∑ j, P i j * f k j) atTop (𝓝 (∑ j, P i j * g j)) :=
  tendsto_finsetSum _ fun j _ => (h j).const_mul (P i j)

theorem visitLimit_step (hP : IsStochastic P) {A B : ι → Prop} {i : ι} (ha : ¬ A i) (hb : ¬ B i) :
    visitLimit P A B i = ∑ j, P i j * visitLimit P A B j := by
  refine tendsto_nhds_unique ((tendsto_add_atTop_iff_nat 1).2 (visitProb_tendsto hP A B i)) ?_
  simp only [visitProb_succ ha hb]
  exact tendsto_step P (visitProb_tendsto hP A B) i

theorem visitLimit_nonneg (hP : IsStochastic P) (A B : ι → Prop) (i : ι) : 0 ≤ visitLimit P A B i :=
  (visitProb_nonneg hP A B 0 i).trans (visitProb_le_limit hP A B 0 i)

theorem visitLimit_le (hP : IsStochastic P) {A B : ι → Prop} {q : ι → ℝ} (h0 : ∀ i, 0 ≤ q i)
    (h1 : ∀ i, B i → 1 ≤ q i) (h : ∀ i, ¬ A i → ¬ B i → ∑ j, P i j * q j ≤ q i) (i : ι) :
    visitLimit P A B i ≤ q i :=
  le_of_tendsto' (visitProb_tendsto hP A B i) fun k => visitProb_le hP h0 h1 h k i

/-- The probability of a visit is the smallest nonnegative solution of the first-step equations. -/
theorem visitLimit_hitting (hP : IsStochastic P) (S : ι → Prop) :
    IsHittingProbability P S (visitLimit P (fun _ => False) S) := by
  refine ⟨⟨fun i hi => visitLimit_target hP hi, fun i hi => visitLimit_step hP id hi⟩,
    visitLimit_nonneg hP _ S, fun g hg h0 i => ?_⟩
  exact visitLimit_le hP h0 (fun i hi => (hg.1 i hi).ge) (fun i _ hi => (hg.2 i hi).ge) i

/-- The probability of a visit of `B` before `A` satisfies the conditions of first-step analysis. -/
theorem visitLimit_committor (hP : IsStochastic P) {A B : ι → Prop} (hd : ∀ i, A i → ¬ B i) :
    IsCommittor P A B (visitLimit P A B) := by
  refine ⟨fun i hi => visitLimit_avoid hP hi (hd i hi), fun i hi => visitLimit_target hP hi,
    fun i => ⟨visitLimit_nonneg hP A B i, ?_⟩, fun i ha hb => visitLimit_step hP ha hb⟩
  exact le_of_tendsto' (visitProb_tendsto hP A B i) fun k => visitProb_le_one hP A B k i

theorem visits_iff (S : ι → Prop) (w : List ι) : VisitsBefore (fun _ => False) S w ↔ Visits S w := by
  induction w with
  | nil => exact ⟨fun h => absurd h not_visitsBefore_nil, fun ⟨a, h, _⟩ => absurd h (by simp)⟩
  | cons a w ih => rw [visitsBefore_cons, visits_cons, ih]; simp

/-! ## Expected time -/

/-- The expected number of steps before the first visit of `S`, out of the first `k` steps. -/
noncomputable def meanTime (P : ι → ι → ℝ) (S : ι → Prop) (k : ℕ) (i : ι) : ℝ :=
  expect P k i fun w => (timeTo S (i :: w) : ℝ)

theorem meanTime_zero (P : ι → ι → ℝ) (S : ι → Prop) (i : ι) : meanTime P S 0 i = 0 := by
  unfold meanTime
  change ((timeTo S [i] : ℕ) : ℝ) = 0
  simp [timeTo]

theorem timeTo_target {S : ι → Prop} [DecidablePred S] {i : ι} (hi : S i) (w : List ι) : timeTo S (i :: w) = 0 := by
  cases w with
  | nil => rfl
  | cons b w => rw [timeTo, if_pos hi]

theorem meanTime_target {S : ι → Prop} {i : ι} (hi : S i) (k : ℕ) : meanTime P S k i = 0 := by
  unfold meanTime
  simp only [timeTo_target hi, Nat.cast_zero]
  exact expect_zero P k i

theorem meanTime_succ (hP : IsStochastic P) {S : ι → Prop} {i : ι} (hi : ¬ S i) (k : ℕ) :
    meanTime P S (k + 1) i = 1 + ∑ j, P i j * meanTime P S k j := by
  unfold meanTime
  rw [expect_succ]
  have : ∀ j, (expect P k j fun w => ((timeTo S (i :: j :: w) : ℕ) : ℝ)) =
      1 + expect P k j fun w => ((timeTo S (j :: w) : ℕ) : ℝ) := by
    intro j
    rw [← expect_const hP k j 1, ← expect_add]
    congr 1
    funext w
    rw [timeTo, if_neg hi]
    push_cast
    rfl
  simp only [this, mul_add, sum_add_distrib, mul_one, hP.2 i]

theorem meanTime_nonneg (hP : IsStochastic P) (S : ι → Prop) (k : ℕ) (i : ι) : 0 ≤ meanTime P S k i :=
  expect_nonneg hP.1 fun _ => Nat.cast_nonneg _

theorem meanTime_mono (hP : IsStochastic P) (S : ι → Prop) (k : ℕ) :
    ∀ i, meanTime P S k i ≤ meanTime P S (k + 1) i := by
  induction k with
  | zero =>
    intro i
    rw [meanTime_zero]
    exact meanTime_nonneg hP S 1 i
  | succ k ih =>
    intro i
    by_cases hi : S i
    · rw [meanTime_target hi, meanTime_target hi]
    · rw [meanTime_succ hP hi, meanTime_succ hP hi]
      exact add_le_add le_rfl (sum_le_sum fun j _ => mul_le_mul_of_nonneg_left (ih j) (hP.1 i j))

/-- A bound by a solution of the first-step equations on a set of states that the chain does not leave
before the visit. -/
theorem meanTime_le (hP : IsStochastic P) {S D : ι → Prop} {t : ι → ℝ} (h0 : ∀ i, D i → 0 ≤ t i)
    (hD : ∀ i j, D i → ¬ S i → 0 < P i j → D j)
    (h : ∀ i, D i → ¬ S i → 1 + ∑ j, P i j * t j ≤ t i) (k : ℕ) :
    ∀ i, D i → meanTime P S k i ≤ t i := by
  induction k with
  | zero =>
    intro i hi
    rw [meanTime_zero]
    exact h0 i hi
  | succ k ih =>
    intro i hi
    by_cases hs : S i
    · rw [meanTime_target hs]
      exact h0 i hi
    · rw [meanTime_succ hP hs]
      refine le_trans (add_le_add le_rfl (sum_le_sum fun j _ => ?_)) (h i hi hs)
      rcases (hP.1 i j).eq_or_lt with h' | h'
      · rw [← h', zero_mul, zero_mul]
      · exact mul_le_mul_of_nonneg_left (ih j (hD i j hi hs h')) (hP.1 i j)

/-- The expected time grows at least like the probability that `S` is missed. -/
theorem meanTime_ge (hP : IsStochastic P) {S : ι → Prop} {h : ι → ℝ} (hh : IsHittingProbability P S h)
    (k : ℕ) : ∀ i, k * (1 - h i) ≤ meanTime P S k i := by
  induction k with
  | zero => intro i; rw [meanTime_zero]; simp
  | succ k ih =>
    intro i
    by_cases hs : S i
    · rw [meanTime_target hs, hh.1.1 i hs]
      simp
    · rw [meanTime_succ hP hs]
      have h1 : ∑ j, P i j * (k * (1 - h j)) ≤ ∑ j, P i j * meanTime P S k j :=
        sum_le_sum fun j _ => mul_le_mul_of_nonneg_left (ih j) (hP.1 i j)
      have h2 : ∑ j, P i j * (k * (1 - h j)) = k * (1 - h i) := by
        have h3 : ∀ j, P i j * (k * (1 - h j)) = k * P i j - k * (P i j * h j) := fun j => by ring
        simp only [h3, sum_sub_distrib, ← mul_sum, hP.2 i, ← hh.1.2 i hs]
        ring
      rw [h2] at h1
      have := hh.2.1 i
      push_cast
      linarith

/-- The limit of the expected times solves the first-step equations. -/
theorem meanTime_limit (hP : IsStochastic P) {S D : ι → Prop} {t : ι → ℝ} (h0 : ∀ i, D i → 0 ≤ t i)
    (hD : ∀ i j, D i → ¬ S i → 0 < P i j → D j)
    (h : ∀ i, D i → ¬ S i → 1 + ∑ j, P i j * t j ≤ t i) :
    ∃ l : ι → ℝ, (∀ i, D i → Tendsto (fun k => meanTime P S k i) atTop (𝓝 (l i))) ∧
      (∀ i, D i → S i → l i = 0) ∧ ∀ i, D i → ¬ S i → l i = 1 + ∑ j, P i j * l j := by
  have hl : ∀ i, D i → Tendsto (fun k => meanTime P S k i) atTop (𝓝 (⨆ k, meanTime P S k i)) := fun i hi =>
    tendsto_atTop_ciSup (monotone_nat_of_le_succ fun k => meanTime_mono hP S k i)
      ⟨t i, by rintro _ ⟨k, rfl⟩; exact meanTime_le hP h0 hD h k i hi⟩
  refine ⟨fun i => ⨆ k, meanTime P S k i, hl, fun i _ hs => ?_, fun i hi hs => ?_⟩
  · simp only [meanTime_target hs, ciSup_const]
  · refine tendsto_nhds_unique ((tendsto_add_atTop_iff_nat 1).2 (hl i hi)) ?_
    simp only [meanTime_succ hP hs]
    refine tendsto_const_nhds.add (tendsto_finsetSum _ fun j _ => ?_)
    rcases (hP.1 i j).eq_or_lt with h' | h'
    · simp only [← h', zero_mul]
      exact tendsto_const_nhds
    · exact (hl j (hD i j hi hs h')).const_mul _

/-- A solution of the first-step equations of the mean time is nonnegative. -/
theorem passageTime_nonneg (hP : IsStochastic P) {S : ι → Prop} {t : ι → ℝ} (ht : IsPassageTime P S t) (i : ι) :
    0 ≤ t i := by
  obtain ⟨m, -, hm⟩ := exists_min_image univ t ⟨i, mem_univ i⟩
  refine le_trans ?_ (hm i (mem_univ i))
  by_cases hs : S m
  · rw [ht.1 m hs]
  · have h1 : ∑ j, P m j * t m ≤ ∑ j, P m j * t j :=
      sum_le_sum fun j _ => mul_le_mul_of_nonneg_left (hm j (mem_univ j)) (hP.1 m j)
    rw [← sum_mul, hP.2 m, one_mul] at h1
    have := ht.2 m hs
    linarith

/-- The expected time tends to the solution of the first-step equations, if there is one. -/
theorem meanTime_tendsto (hP : IsStochastic P) {S : ι → Prop} {t : ι → ℝ}
    (ht : ∀ s, IsPassageTime P S s ↔ s = t) (i : ι) :
    Tendsto (fun k => meanTime P S k i) atTop (𝓝 (t i)) := by
  have h := (ht t).2 rfl
  obtain ⟨l, h1, h2, h3⟩ := meanTime_limit hP (S := S) (D := fun _ => True) (t := t)
    (fun i _ => passageTime_nonneg hP h i) (fun _ _ _ _ _ => trivial) fun i _ hs => (h.2 i hs).ge
  rw [← (ht l).1 ⟨fun i hi => h2 i trivial hi, fun i hi => h3 i trivial hi⟩]
  exact h1 i trivial

/-- The expected time tends to the hitting time where this is finite. -/
theorem meanTime_hitting (hP : IsStochastic P) {S : ι → Prop} {r : ι → Option ℝ}
    (hr : ∀ r', IsHittingTime P S r' ↔ r' = r) :
    (∀ i t, r i = some t → Tendsto (fun k => meanTime P S k i) atTop (𝓝 t)) ∧
      ∀ i, r i = none → Tendsto (fun k => meanTime P S k i) atTop atTop := by
  have h := (hr r).2 rfl
  constructor
  · have h0 : ∀ i, r i ≠ none → 0 ≤ (r i).getD 0 := by
      by_contra hcon
      push Not at hcon
      obtain ⟨i, hi, hneg⟩ := hcon
      obtain ⟨m, hm, hmin⟩ := exists_min_image (univ.filter fun i => r i ≠ none) (fun i => (r i).getD 0)
        ⟨i, by simp [hi]⟩
      simp only [mem_filter, mem_univ, true_and] at hm hmin
      have hmneg : (r m).getD 0 < 0 := (hmin i hi).trans_lt hneg
      have hs : ¬ S m := fun hs => by rw [h.2.1 m hs] at hmneg; simp at hmneg
      obtain ⟨t, ht⟩ := Option.ne_none_iff_exists'.1 hm
      obtain ⟨h1, h2⟩ := h.2.2 m hs t ht
      have h3 : ∑ j, P m j * (r m).getD 0 ≤ ∑ j, P m j * (r j).getD 0 := by
        refine sum_le_sum fun j _ => ?_
        rcases (hP.1 m j).eq_or_lt with h' | h'
        · rw [← h', zero_mul, zero_mul]
        · exact mul_le_mul_of_nonneg_left (hmin j (h1 j h')) (hP.1 m j)
      rw [← sum_mul, hP.2 m, one_mul, ht, Option.getD_some] at h3
      linarith
    obtain ⟨l, h1, h2, h3⟩ := meanTime_limit hP (S := S) (D := fun i => r i ≠ none)
      (t := fun i => (r i).getD 0) h0
      (fun i j hi hs hp => by
        obtain ⟨t, ht⟩ := Option.ne_none_iff_exists'.1 hi
        exact (h.2.2 i hs t ht).1 j hp)
      (fun i hi hs => by
        obtain ⟨t, ht⟩ := Option.ne_none_iff_exists'.1 hi
        rw [← (h.2.2 i hs t ht).2, ht]
        rfl)
    have h4 : (fun i => if r i = none then none else some (l i)) = r := by
      refine (hr _).1 ⟨fun g hg i => ?_, fun i hs => ?_, fun i hs t ht => ?_⟩
      · rw [← h.1 g hg i]
        by_cases hi : r i = none <;> simp [hi]
      · have : r i ≠ none := by rw [h.2.1 i hs]; simp
        change (if r i = none then none else some (l i)) = some 0
        rw [if_neg this, h2 i this hs]
      · by_cases hi : r i = none
        · simp [hi] at ht
        · change (if r i = none then none else some (l i)) = some t at ht
          rw [if_neg hi, Option.some.injEq] at ht
          obtain ⟨t', ht'⟩ := Option.ne_none_iff_exists'.1 hi
          obtain ⟨h5, -⟩ := h.2.2 i hs t' ht'
          refine ⟨fun j hp => by simp [h5 j hp], ?_⟩
          rw [← ht, h3 i hi hs]
          congr 1
          refine sum_congr rfl fun j _ => ?_
          rcases (hP.1 i j).eq_or_lt with h' | h'
          · rw [← h', zero_mul, zero_mul]
          · simp [h5 j h']
    intro i t ht
    have hi : r i ≠ none := by rw [ht]; simp
    have h5 := congrFun h4 i
    rw [if_neg hi, ht, Option.some.injEq] at h5
    rw [← h5]
    exact h1 i hi
  · intro i hi
    have hh := visitLimit_hitting hP S
    have h1 := (h.1 _ hh i).1 hi
    refine tendsto_atTop_mono (fun k => meanTime_ge hP hh k i) ?_
    exact tendsto_natCast_atTop_atTop.atTop_mul_const (sub_pos.2 h1)

end Verif
