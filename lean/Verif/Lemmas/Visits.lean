import Verif.Lemmas.Harmonic
import Verif.Lemmas.Graph
import Verif.Spec.Passage
import Mathlib.Topology.Algebra.InfiniteSum.Real
import Mathlib.Topology.Algebra.InfiniteSum.Order
import Mathlib.Tactic.FieldSimp

/-!
Return probabilities and expected numbers of visits of a finite chain.
-/

set_option linter.unusedSectionVars false

namespace Verif

open Finset

section Generic

variable {K : Type*} [Field K] [LinearOrder K] [IsStrictOrderedRing K]
variable {ι : Type*} [Fintype ι] [DecidableEq ι]

/-- The conditions solved by the program: known values on recurrent states, first-step equations on
transient states. -/
def ReturnSystem (P : ι → ι → K) (j : ι) (x : ι → K) : Prop :=
  (∀ i, RecurrentState P i → Communicate P i j → x i = 1) ∧
  (∀ i, RecurrentState P i → ¬ Communicate P i j → x i = 0) ∧
  ∀ i, ¬ RecurrentState P i → x i = ∑ k, P i k * if k = j then 1 else x k

/-- A function that dominates its first-step mean. -/
def ReturnSuper (P : ι → ι → K) (j : ι) (g : ι → K) : Prop :=
  ∀ i, ∑ k, P i k * (if k = j then 1 else g k) ≤ g i

theorem IsReturnSolution.super {P : ι → ι → K} {j : ι} {g : ι → K} (h : IsReturnSolution P j g) :
    ReturnSuper P j g := fun i => (h i).symm.le

theorem boundary_reach (P : ι → ι → K) (j i : ι) : ∃ b, (RecurrentState P b ∨ b = j) ∧ Reach P i b := by
  obtain ⟨b, h1, h2⟩ := exists_recurrent_reach P i
  exact ⟨b, .inl h2, h1⟩

/-- In the recurrent class of `j` a dominating function is at least one. -/
theorem ReturnSuper.one_le {P : ι → ι → K} (hP : IsStochastic P) {j : ι} {g : ι → K}
    (hg : ReturnSuper P j g) {i : ι} (hi : RecurrentState P i)
    (hij : Communicate P i j) : 1 ≤ g i := by
  classical
  have hj : RecurrentState P j := hi.of_reach hij.1
  -- the minimum principle on the class
  have key : ∀ k, 0 ≤ (if Communicate P k j then (if k = j then (1 : K) else g k) - 1 else 0) := by
    refine min_principle hP (B := fun k => k = j ∨ ¬ Communicate P k j) ?_ ?_ ?_
    · intro k
      by_cases hk : Communicate P k j
      · exact ⟨j, .inl rfl, hk.1⟩
      · exact ⟨k, .inr hk, .refl k⟩
    · rintro k (rfl | hk)
      · rw [if_pos (Communicate.refl _), if_pos rfl, sub_self]
      · rw [if_neg hk]
    · intro k hk
      have hkj : k ≠ j := fun h => hk (.inl h)
      have hc : Communicate P k j := by
        by_contra h
        exact hk (.inr h)
      rw [if_pos hc, if_neg hkj]
      have h1 : ∑ l, P k l * (if Communicate P l j then (if l = j then (1 : K) else g l) - 1 else 0)
          = ∑ l, P k l * ((if l = j then (1 : K) else g l) - 1) := by
        refine Finset.sum_congr rfl fun l _ => ?_
        by_cases hl : Communicate P l j
        · rw [if_pos hl]
        · have : ¬ 0 < P k l := fun hp => hl (by
            have hr : Reach P j l := hc.2.trans (Reach.single hp)
            exact ⟨hj l hr, hr⟩)
          have h0 : P k l = 0 := le_antisymm (not_lt.1 this) (hP.1 k l)
          rw [h0, zero_mul, zero_mul]
      rw [h1]
      simp only [mul_sub, Finset.sum_sub_distrib, mul_one, hP.2 k]
      linarith [hg k]
  by_cases hh : i = j
  · subst hh
    have h2 : (1 : K) = ∑ k, P i k * 1 := by simp only [mul_one, hP.2 i]
    refine le_trans ?_ (hg i)
    refine le_trans h2.le ?_
    refine Finset.sum_le_sum fun k _ => ?_
    rcases (hP.1 i k).lt_or_eq with hp | hp
    · refine mul_le_mul_of_nonneg_left ?_ hp.le
      have hr : Reach P i k := Reach.single hp
      have := key k
      rw [if_pos ⟨hi k hr, hr⟩] at this
      linarith
    · rw [← hp, zero_mul, zero_mul]
  · have := key i
    rw [if_pos hij, if_neg hh] at this
    linarith

/-- A solution of the system lies below every dominating function. -/
theorem ReturnSystem.le {P : ι → ι → K} (hP : IsStochastic P) {j : ι} {x g : ι → K}
    (hx : ReturnSystem P j x) (hg : ReturnSuper P j g) (h0 : ∀ i, 0 ≤ g i) (i : ι) : x i ≤ g i := by
  classical
  have hrec : ∀ k, RecurrentState P k → x k ≤ g k := by
    intro k hk
    by_cases hc : Communicate P k j
    · rw [hx.1 k hk hc]; exact hg.one_le hP hk hc
    · rw [hx.2.1 k hk hc]; exact h0 k
  have key : ∀ k, 0 ≤ (if k = j then (1 : K) else g k) - (if k = j then (1 : K) else x k) := by
    refine min_principle hP (boundary_reach P j) ?_ ?_
    · rintro k (hk | rfl)
      · by_cases h : k = j
        · rw [if_pos h, if_pos h, sub_self]
        · rw [if_neg h, if_neg h]; linarith [hrec k hk]
      · rw [if_pos rfl, if_pos rfl, sub_self]
    · intro k hk
      have hkj : k ≠ j := fun h => hk (.inr h)
      have hkr : ¬ RecurrentState P k := fun h => hk (.inl h)
      rw [if_neg hkj, if_neg hkj]
      simp only [mul_sub, Finset.sum_sub_distrib]
      linarith [hg k, hx.2.2 k hkr]
  by_cases hi : RecurrentState P i
  · exact hrec i hi
  · rw [hx.2.2 i hi]
    refine le_trans (Finset.sum_le_sum fun k _ => ?_) (hg i)
    exact mul_le_mul_of_nonneg_left (by linarith [key k]) (hP.1 i k)

theorem ReturnSystem.solution {P : ι → ι → K} (hP : IsStochastic P) {j : ι} {x : ι → K}
    (hx : ReturnSystem P j x) : IsReturnSolution P j x := by
  intro i
  by_cases hi : RecurrentState P i
  · by_cases hc : Communicate P i j
    · rw [hx.1 i hi hc]
      refine (hP.2 i).symm.trans ?_
      refine Finset.sum_congr rfl fun k _ => ?_
      rcases (hP.1 i k).lt_or_eq with hp | hp
      · have hr : Reach P i k := Reach.single hp
        have hkr := hi.of_reach hr
        have hkc : Communicate P k j := (Communicate.symm ⟨hr, hi k hr⟩).trans hc
        by_cases h : k = j
        · rw [if_pos h, mul_one]
        · rw [if_neg h, hx.1 k hkr hkc, mul_one]
      · rw [← hp, zero_mul]
    · rw [hx.2.1 i hi hc]
      symm
      refine Finset.sum_eq_zero fun k _ => ?_
      rcases (hP.1 i k).lt_or_eq with hp | hp
      · have hr : Reach P i k := Reach.single hp
        have hkr := hi.of_reach hr
        have hkc : ¬ Communicate P k j := fun h => hc (Communicate.trans ⟨hr, hi k hr⟩ h)
        have h : k ≠ j := fun h => hkc (h ▸ Communicate.refl k)
        rw [if_neg h, hx.2.1 k hkr hkc, mul_zero]
      · rw [← hp, zero_mul]
  · exact hx.2.2 i hi

theorem ReturnSystem.nonneg {P : ι → ι → K} (hP : IsStochastic P) {j : ι} {x : ι → K}
    (hx : ReturnSystem P j x) (i : ι) : 0 ≤ x i := by
  classical
  have hrec : ∀ k, RecurrentState P k → 0 ≤ x k := by
    intro k hk
    by_cases hc : Communicate P k j
    · rw [hx.1 k hk hc]; exact zero_le_one
    · rw [hx.2.1 k hk hc]
  have key : ∀ k, 0 ≤ (if k = j then (1 : K) else x k) := by
    refine min_principle hP (boundary_reach P j) ?_ ?_
    · rintro k (hk | rfl)
      · by_cases h : k = j
        · rw [if_pos h]; exact zero_le_one
        · rw [if_neg h]; exact hrec k hk
      · rw [if_pos rfl]; exact zero_le_one
    · intro k hk
      have hkj : k ≠ j := fun h => hk (.inr h)
      have hkr : ¬ RecurrentState P k := fun h => hk (.inl h)
      rw [if_neg hkj]
      exact (hx.2.2 k hkr).symm.le
  rw [hx.solution hP i]
  exact Finset.sum_nonneg fun k _ => mul_nonneg (hP.1 i k) (key k)

theorem ReturnSystem.isReturnProbability {P : ι → ι → K} (hP : IsStochastic P) {j : ι} {x : ι → K}
    (hx : ReturnSystem P j x) : IsReturnProbability P j x :=
  ⟨hx.solution hP, hx.nonneg hP, fun _ hg h0 => hx.le hP hg.super h0⟩

theorem IsReturnProbability.unique {P : ι → ι → K} {j : ι} {x y : ι → K}
    (hx : IsReturnProbability P j x) (hy : IsReturnProbability P j y) : x = y :=
  funext fun i => le_antisymm (hx.2.2 y hy.1 hy.2.1 i) (hy.2.2 x hx.1 hx.2.1 i)

/-- The homogeneous system has only the zero solution. -/
theorem returnSystem_kernel {P : ι → ι → K} (hP : IsStochastic P) {j : ι} {d : ι → K}
    (h1 : ∀ i, RecurrentState P i → d i = 0)
    (h2 : ∀ i, ¬ RecurrentState P i → d i = ∑ k, P i k * if k = j then 0 else d k) : d = 0 := by
  have key : (fun k => if k = j then 0 else d k) = fun _ => (0 : K) := by
    refine harmonic_unique hP (b := fun _ => 0) (boundary_reach P j) ?_ ?_ ?_
    · rintro k (hk | rfl)
      · simp only [h1 k hk, ite_self]
      · exact if_pos rfl
    · intro k hk
      have hkj : k ≠ j := fun h => hk (.inr h)
      have hkr : ¬ RecurrentState P k := fun h => hk (.inl h)
      simp only [if_neg hkj, zero_add]
      exact h2 k hkr
    · intro k _
      simp
  funext i
  by_cases hi : RecurrentState P i
  · exact h1 i hi
  · rw [h2 i hi]
    refine Finset.sum_eq_zero fun k _ => ?_
    rw [congrFun key k, mul_zero]

/-- No visit is possible where the return probability vanishes. -/
theorem ReturnSystem.pow_eq_zero {P : Matrix ι ι K} (hP : IsStochastic P) {j : ι} {x : ι → K}
    (hx : ReturnSystem P j x) (k : ℕ) : ∀ i, x i = 0 → (P ^ (k + 1)) i j = 0 := by
  have hstep : ∀ i, x i = 0 → ∀ l, 0 < P i l → l ≠ j ∧ x l = 0 := by
    intro i hi l hl
    have h1 := hx.solution hP i
    rw [hi] at h1
    have h0 : ∀ m ∈ (univ : Finset ι), 0 ≤ P i m * if m = j then 1 else x m := fun m _ =>
      mul_nonneg (hP.1 i m) (by split; exacts [zero_le_one, hx.nonneg hP m])
    have h2 := (Finset.sum_eq_zero_iff_of_nonneg h0).1 h1.symm l (mem_univ l)
    rcases mul_eq_zero.1 h2 with h | h
    · exact absurd h hl.ne'
    · by_cases hlj : l = j
      · rw [if_pos hlj] at h; exact absurd h one_ne_zero
      · rw [if_neg hlj] at h; exact ⟨hlj, h⟩
  induction k with
  | zero =>
    intro i hi
    rw [zero_add, pow_one]
    by_contra h
    exact (hstep i hi j (lt_of_le_of_ne (hP.1 i j) (Ne.symm h))).1 rfl
  | succ k ih =>
    intro i hi
    rw [pow_succ', Matrix.mul_apply]
    refine Finset.sum_eq_zero fun l _ => ?_
    rcases (hP.1 i l).lt_or_eq with hp | hp
    · rw [ih l (hstep i hi l hp).2, mul_zero]
    · rw [← hp, zero_mul]

/-- Where the return probability is positive some number of steps leads to `j`. -/
theorem ReturnSystem.exists_pow_pos {P : Matrix ι ι K} (hP : IsStochastic P) {j : ι} {x : ι → K}
    (hx : ReturnSystem P j x) {i : ι} (hi : 0 < x i) : ∃ k, 0 < (P ^ (k + 1)) i j := by
  classical
  by_contra hno
  have hsup : ReturnSuper (fun i j => P i j) j
      fun l => if ∃ k, 0 < (P ^ (k + 1)) l j then x l else 0 := by
    intro l
    by_cases hl : ∃ k, 0 < (P ^ (k + 1)) l j
    · simp only [if_pos hl]
      rw [hx.solution hP l]
      refine Finset.sum_le_sum fun m _ => mul_le_mul_of_nonneg_left ?_ (hP.1 l m)
      by_cases hm : m = j
      · rw [if_pos hm, if_pos hm]
      · rw [if_neg hm, if_neg hm]
        split
        exacts [le_rfl, hx.nonneg hP m]
    · simp only [if_neg hl]
      refine le_of_eq (Finset.sum_eq_zero fun m _ => ?_)
      rcases (hP.1 l m).lt_or_eq with hp | hp
      · have hm : m ≠ j := fun h => hl ⟨0, by rw [zero_add, pow_one, ← h]; exact hp⟩
        have hm2 : ¬ ∃ k, 0 < (P ^ (k + 1)) m j := by
          rintro ⟨k, hk⟩
          refine hl ⟨k + 1, ?_⟩
          rw [pow_succ', Matrix.mul_apply]
          refine lt_of_lt_of_le (mul_pos hp hk) (Finset.single_le_sum
            (f := fun m => P l m * (P ^ (k + 1)) m j)
            (fun m _ => mul_nonneg (hP.1 l m) (nonneg_pow hP.1 _ m j)) (mem_univ m))
        rw [if_neg hm, if_neg hm2, mul_zero]
      · rw [← hp, zero_mul]
  have := hx.le hP hsup (fun l => by
    split
    exacts [hx.nonneg hP l, le_rfl]) i
  simp only [if_neg hno] at this
  exact absurd hi (not_lt.2 this)

/-- The mean number of visits during the first `k` steps. -/
theorem visits_succ (P : Matrix ι ι K) (j : ι) (k : ℕ) (i : ι) :
    ∑ t ∈ range (k + 1), (P ^ (t + 1)) i j
      = P i j + ∑ l, P i l * ∑ t ∈ range k, (P ^ (t + 1)) l j := by
  rw [Finset.sum_range_succ', zero_add, pow_one, add_comm]
  congr 1
  simp only [Finset.mul_sum]
  rw [Finset.sum_comm]
  refine Finset.sum_congr rfl fun t _ => ?_
  rw [pow_succ', Matrix.mul_apply]

/-- Visits are counted from the first visit on. -/
theorem ReturnSystem.visits_le {P : Matrix ι ι K} {j : ι} {x : ι → K} (hP : IsStochastic P) (hx : ReturnSystem P j x) (k : ℕ) (i : ι) :
    ∑ t ∈ range k, (P ^ (t + 1)) i j ≤ x i * (1 + ∑ t ∈ range k, (P ^ (t + 1)) j j) := by
  have hmono : ∀ k, ∑ t ∈ range k, (P ^ (t + 1)) j j ≤ ∑ t ∈ range (k + 1), (P ^ (t + 1)) j j := by
    intro k
    rw [Finset.sum_range_succ]
    linarith [nonneg_pow hP.1 (k + 1) j j]
  induction k generalizing i with
  | zero => simp [hx.nonneg hP i]
  | succ k ih =>
    rw [visits_succ]
    refine le_trans ?_ (mul_le_mul_of_nonneg_left (add_le_add_right (hmono k) 1) (hx.nonneg hP i))
    rw [hx.solution hP i, Finset.sum_mul]
    have h1 : P i j = ∑ l, P i l * (if l = j then 1 else 0) := by simp
    rw [h1, ← Finset.sum_add_distrib]
    refine Finset.sum_le_sum fun l _ => ?_
    rw [← mul_add, mul_assoc]
    refine mul_le_mul_of_nonneg_left ?_ (hP.1 i l)
    by_cases hl : l = j
    · subst hl; simp
    · rw [if_neg hl, if_neg hl, zero_add]
      exact ih l

end Generic

section Real

variable {ι : Type*} [Fintype ι] [DecidableEq ι] {P : Matrix ι ι ℝ} {j : ι} {x : ι → ℝ}

/-- If the number of visits to `j` has a finite mean from `j`, then it has from everywhere, and the
means are determined by the return probabilities. -/
theorem ReturnSystem.of_summable (hP : IsStochastic P) (hx : ReturnSystem P j x)
    (hs : Summable fun k => (P ^ (k + 1)) j j) :
    x j < 1 ∧ ∀ i, HasSum (fun k => (P ^ (k + 1)) i j) (x i / (1 - x j)) := by
  have hnn : ∀ (i : ι) (k : ℕ), 0 ≤ (P ^ (k + 1)) i j := fun i k => nonneg_pow hP.1 _ i j
  obtain ⟨G, hG⟩ : ∃ G : ι → ℝ, G = fun i => ∑' k, (P ^ (k + 1)) i j := ⟨_, rfl⟩
  have hsj : ∀ k, ∑ t ∈ range k, (P ^ (t + 1)) j j ≤ G j := fun k => by
    rw [hG]; exact hs.sum_le_tsum _ fun t _ => hnn j t
  have hsum : ∀ i, Summable fun k => (P ^ (k + 1)) i j := fun i =>
    summable_of_sum_range_le (hnn i) fun k => (hx.visits_le hP k i).trans
      (mul_le_mul_of_nonneg_left (add_le_add_right (hsj k) 1) (hx.nonneg hP i))
  have hhas : ∀ i, HasSum (fun k => (P ^ (k + 1)) i j) (G i) := fun i => by
    rw [hG]; exact (hsum i).hasSum
  have hG0 : ∀ i, 0 ≤ G i := fun i => (hhas i).nonneg (hnn i)
  have hle : ∀ i, G i ≤ x i * (1 + G j) := fun i => by
    refine le_of_tendsto' (hhas i).tendsto_sum_nat fun k => (hx.visits_le hP k i).trans
      (mul_le_mul_of_nonneg_left (add_le_add_right (hsj k) 1) (hx.nonneg hP i))
  have hrec : ∀ i, G i = P i j + ∑ l, P i l * G l := by
    intro i
    have h1 : HasSum (fun k => (P ^ (k + 1 + 1)) i j) (∑ l, P i l * G l) := by
      have : (fun k => (P ^ (k + 1 + 1)) i j) = fun k => ∑ l, P i l * (P ^ (k + 1)) l j := by
        funext k
        rw [pow_succ', Matrix.mul_apply]
      rw [this]
      exact hasSum_sum fun l _ => (hhas l).mul_left _
    have h2 := (hasSum_nat_add_iff (f := fun k => (P ^ (k + 1)) i j) 1).1 h1
    simp only [Finset.sum_range_one, zero_add, pow_one] at h2
    rw [(hhas i).unique h2, add_comm]
  have hpos : 0 < 1 + G j := by linarith [hG0 j]
  have hsol : ReturnSuper (fun i j => P i j) j fun i => G i / (1 + G j) := by
    intro i
    refine le_of_eq ?_
    rw [eq_div_iff hpos.ne', Finset.sum_mul, hrec i]
    have h1 : P i j = ∑ l, P i l * (if l = j then 1 else 0) := by simp
    rw [h1, ← Finset.sum_add_distrib]
    refine Finset.sum_congr rfl fun l _ => ?_
    by_cases hl : l = j
    · subst hl; simp; ring
    · rw [if_neg hl, if_neg hl, mul_assoc, div_mul_cancel₀ _ hpos.ne', mul_zero, zero_add]
  have hge : ∀ i, x i * (1 + G j) ≤ G i := fun i => by
    have := hx.le hP hsol (fun i => div_nonneg (hG0 i) hpos.le) i
    exact (le_div_iff₀ hpos).1 this
  have heq : ∀ i, G i = x i * (1 + G j) := fun i => le_antisymm (hle i) (hge i)
  have hxj : x j < 1 := by
    by_contra h
    have h1 : (1 + G j) ≤ x j * (1 + G j) := le_mul_of_one_le_left hpos.le (not_lt.1 h)
    linarith [heq j]
  have hz : 1 + G j = 1 / (1 - x j) := by
    rw [eq_div_iff (by linarith)]
    linarith [heq j]
  refine ⟨hxj, fun i => ?_⟩
  have := hhas i
  rw [heq i, hz, mul_one_div] at this
  exact this

/-- If `j` may never be visited again, the number of visits has a finite mean. -/
theorem ReturnSystem.hasSum (hP : IsStochastic P) (hx : ReturnSystem P j x) (hj : x j < 1) (i : ι) :
    HasSum (fun k => (P ^ (k + 1)) i j) (x i / (1 - x j)) := by
  refine (hx.of_summable hP ?_).2 i
  refine summable_of_sum_range_le (c := x j / (1 - x j)) (fun k => nonneg_pow hP.1 _ j j) fun k => ?_
  rw [le_div_iff₀ (by linarith)]
  linarith [hx.visits_le hP k j]

/-- If `j` is visited again and again, the number of visits has no finite mean from any state that
leads to `j`. -/
theorem ReturnSystem.not_summable (hP : IsStochastic P) (hx : ReturnSystem P j x) (hj : x j = 1)
    {i : ι} (hi : 0 < x i) : ¬ Summable fun k => (P ^ (k + 1)) i j := by
  intro hs
  obtain ⟨m, hm⟩ := hx.exists_pow_pos hP hi
  have hs2 : Summable fun k => (P ^ (k + 1)) j j := by
    have h1 : Summable fun k => (P ^ (k + (m + 1) + 1)) i j :=
      (summable_nat_add_iff (f := fun k => (P ^ (k + 1)) i j) (m + 1)).2 hs
    have h2 := h1.mul_left (((P ^ (m + 1)) i j)⁻¹)
    refine Summable.of_nonneg_of_le (fun k => nonneg_pow hP.1 _ j j) (fun k => ?_) h2
    rw [← div_eq_inv_mul, le_div_iff₀ hm, mul_comm,
      show k + (m + 1) + 1 = (m + 1) + (k + 1) by ring, pow_add P (m + 1) (k + 1),
      Matrix.mul_apply]
    exact Finset.single_le_sum (f := fun l => (P ^ (m + 1)) i l * (P ^ (k + 1)) l j)
      (fun l _ => mul_nonneg (nonneg_pow hP.1 _ i l) (nonneg_pow hP.1 _ l j)) (mem_univ j)
  exact absurd hj (hx.of_summable hP hs2).1.ne

end Real

end Verif
