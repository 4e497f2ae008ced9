import Verif.Spec.Chain
import Mathlib.Tactic.Ring
import Mathlib.Tactic.Linarith
import Mathlib.Tactic.Positivity
import Mathlib.Data.Fintype.Pigeonhole
import Mathlib.Data.Fintype.BigOperators
import Mathlib.Algebra.BigOperators.Field

/-! Helper lemmas about the specification vocabulary. -/

set_option linter.unusedSectionVars false

namespace Verif

open Finset

variable {K : Type*} [Field K] [LinearOrder K] [IsStrictOrderedRing K]
variable {ι κ : Type*} [Fintype ι] [Fintype κ]

/-! ### Stochastic matrices -/

theorem IsStochastic.le_one {P : ι → κ → K} (h : IsStochastic P) (i : ι) (j : κ) : P i j ≤ 1 := by
  classical
  rw [← h.2 i]
  exact single_le_sum (f := fun j => P i j) (fun j _ => h.1 i j) (mem_univ j)

theorem IsStochastic.mul {P : Matrix ι ι K} {Q : Matrix ι κ K} (hP : IsStochastic P)
    (hQ : IsStochastic Q) : IsStochastic (P * Q) := by
  refine ⟨fun i j => ?_, fun i => ?_⟩
  · rw [Matrix.mul_apply]
    exact sum_nonneg fun k _ => mul_nonneg (hP.1 i k) (hQ.1 k j)
  · simp only [Matrix.mul_apply]
    rw [sum_comm]
    simp only [← mul_sum]
    simp [hQ.2, hP.2]

theorem isStochastic_one [DecidableEq ι] : IsStochastic (1 : Matrix ι ι K) := by
  refine ⟨fun i j => ?_, fun i => ?_⟩
  · by_cases h : i = j
    · subst h; simp
    · simp [h]
  · simp [Matrix.one_apply]

theorem IsStochastic.pow [DecidableEq ι] {P : Matrix ι ι K} (hP : IsStochastic P) (k : ℕ) :
    IsStochastic (P ^ k) := by
  induction k with
  | zero => simpa using isStochastic_one
  | succ k ih => rw [pow_succ]; exact ih.mul hP

theorem nonneg_pow [DecidableEq ι] {P : Matrix ι ι K} (hP : ∀ i j, 0 ≤ P i j) (k : ℕ) (i j : ι) :
    0 ≤ (P ^ k) i j := by
  induction k generalizing i j with
  | zero =>
    by_cases h : i = j
    · subst h; simp
    · simp [h]
  | succ k ih =>
    rw [pow_succ, Matrix.mul_apply]
    exact sum_nonneg fun l _ => mul_nonneg (ih i l) (hP l j)

theorem IsDist.vecMul {P : ι → ι → K} {d : ι → K} (hP : IsStochastic P) (hd : IsDist d) :
    IsDist (fun j => ∑ i, d i * P i j) := by
  refine ⟨fun j => sum_nonneg fun i _ => mul_nonneg (hd.1 i) (hP.1 i j), ?_⟩
  rw [sum_comm]
  simp only [← mul_sum, hP.2, mul_one, hd.2]

/-! ### Expectation over walks -/

theorem expect_add (P : ι → ι → K) (k : ℕ) (i : ι) (f g : List ι → K) :
    expect P k i (fun w => f w + g w) = expect P k i f + expect P k i g := by
  induction k generalizing i f g with
  | zero => simp [expect]
  | succ k ih => simp [expect, ih, mul_add, sum_add_distrib]

theorem expect_smul (P : ι → ι → K) (k : ℕ) (i : ι) (c : K) (f : List ι → K) :
    expect P k i (fun w => c * f w) = c * expect P k i f := by
  induction k generalizing i f with
  | zero => simp [expect]
  | succ k ih => simp only [expect, ih, mul_sum]; exact sum_congr rfl fun j _ => by ring

theorem expect_const {P : ι → ι → K} (hP : IsStochastic P) (k : ℕ) (i : ι) (c : K) :
    expect P k i (fun _ => c) = c := by
  induction k generalizing i with
  | zero => simp [expect]
  | succ k ih => simp [expect, ih, ← sum_mul, hP.2]

theorem expect_zero (P : ι → ι → K) (k : ℕ) (i : ι) : expect P k i (fun _ => 0) = 0 := by
  induction k generalizing i with
  | zero => simp [expect]
  | succ k ih => simp [expect, ih]

theorem expect_sum {α : Type*} (P : ι → ι → K) (k : ℕ) (i : ι) (s : Finset α)
    (f : α → List ι → K) :
    expect P k i (fun w => ∑ a ∈ s, f a w) = ∑ a ∈ s, expect P k i (f a) := by
  classical
  induction s using Finset.induction_on with
  | empty => simp [expect_zero]
  | insert a s ha ih => simp only [sum_insert ha, expect_add, ih]

theorem expect_congr {P : ι → ι → K} {k : ℕ} {i : ι} {f g : List ι → K}
    (h : ∀ w, w.length = k → f w = g w) : expect P k i f = expect P k i g := by
  induction k generalizing i f g with
  | zero => simpa [expect] using h [] rfl
  | succ k ih =>
    simp only [expect]
    refine sum_congr rfl fun j _ => ?_
    rw [ih (f := fun w => f (j :: w)) (g := fun w => g (j :: w))]
    intro w hw
    exact h _ (by simp [hw])

theorem expect_mono {P : ι → ι → K} (hP : ∀ i j, 0 ≤ P i j) {k : ℕ} {i : ι} {f g : List ι → K}
    (h : ∀ w, w.length = k → f w ≤ g w) : expect P k i f ≤ expect P k i g := by
  induction k generalizing i f g with
  | zero => simpa [expect] using h [] rfl
  | succ k ih =>
    simp only [expect]
    refine sum_le_sum fun j _ => mul_le_mul_of_nonneg_left (ih ?_) (hP i j)
    intro w hw
    exact h _ (by simp [hw])

theorem expect_nonneg {P : ι → ι → K} (hP : ∀ i j, 0 ≤ P i j) {k : ℕ} {i : ι} {f : List ι → K}
    (h : ∀ w, 0 ≤ f w) : 0 ≤ expect P k i f := by
  rw [← expect_zero P k i]; exact expect_mono hP fun w _ => h w

/-- Splitting the first `a` steps from the following `b`. -/
theorem expect_append (P : ι → ι → K) (a b : ℕ) (i : ι) (f : List ι → K) :
    expect P (a + b) i f =
      expect P a i (fun w => expect P b (w.getLastD i) (fun v => f (w ++ v))) := by
  induction a generalizing i f with
  | zero => simp [expect]
  | succ a ih =>
    rw [show a + 1 + b = (a + b) + 1 by omega]
    simp only [expect]
    refine sum_congr rfl fun j _ => ?_
    rw [ih]
    congr 1
    refine expect_congr fun w _ => ?_
    rw [List.getLastD_cons]
    simp

/-- The expectation depends on the first `a` of `a + b` steps only if `f` does. -/
theorem expect_take {P : ι → ι → K} (hP : IsStochastic P) (a b : ℕ) (i : ι) (f : List ι → K) :
    expect P (a + b) i (fun w => f (w.take a)) = expect P a i f := by
  rw [expect_append]
  refine expect_congr fun w hw => ?_
  have : (fun v : List ι => f ((w ++ v).take a)) = fun _ => f w := by
    funext v; rw [← hw]; simp
  rw [this, expect_const hP]

/-- `expect` is the sum over all walks of the probability of the walk times the value. -/
theorem expect_eq_sum_walks (P : ι → ι → K) (k : ℕ) (i : ι) (f : List ι → K) :
    expect P k i f =
      ∑ w : Fin k → ι, walkProb P (i :: List.ofFn w) * f (List.ofFn w) := by
  induction k generalizing i f with
  | zero => simp [expect, walkProb]
  | succ k ih =>
    simp only [expect, ih]
    rw [← (Fin.consEquiv (fun _ : Fin (k + 1) => ι)).sum_comp, Fintype.sum_prod_type]
    refine sum_congr rfl fun j _ => ?_
    rw [mul_sum]
    refine sum_congr rfl fun w _ => ?_
    simp [Fin.consEquiv, List.ofFn_succ, walkProb, mul_assoc]

/-! ### k-step probabilities -/

/-- Expectation of a function of the current position after `k` steps. -/
theorem expect_last [DecidableEq ι] (P : Matrix ι ι K) (k : ℕ) (i : ι) (g : ι → K) :
    expect P k i (fun w => g (w.getLastD i)) = ∑ j, (P ^ k) i j * g j := by
  induction k generalizing i with
  | zero => simp [expect, Matrix.one_apply]
  | succ k ih =>
    simp only [expect]
    rw [pow_succ']
    simp only [Matrix.mul_apply, sum_mul]
    rw [sum_comm]
    refine sum_congr rfl fun j _ => ?_
    have := ih j
    simp only [List.getLastD_cons]
    rw [this, mul_sum]
    exact sum_congr rfl fun l _ => by ring

/-- Entry `(i,j)` of the `k`-th power is the probability of being in `j` after `k` steps. -/
theorem pow_eq_prob [DecidableEq ι] (P : Matrix ι ι K) (k : ℕ) (i j : ι) :
    (P ^ k) i j = prob P k i (fun w => w.getLastD i = j) := by
  unfold prob
  rw [expect_last P k i (fun l => if l = j then 1 else 0)]
  simp

/-! ### Reachability -/

theorem ReachIn.trans {P : ι → ι → K} {a b : ℕ} {i j l : ι} (h : ReachIn P a i j)
    (h' : ReachIn P b j l) : ReachIn P (a + b) i l := by
  induction h' with
  | refl => simpa using h
  | step _ e ih => exact ReachIn.step (ih h) e

theorem ReachIn.single {P : ι → ι → K} {i j : ι} (h : Edge P i j) : ReachIn P 1 i j :=
  ReachIn.step (ReachIn.refl i) h

theorem reach_iff_reachIn {P : ι → ι → K} {i j : ι} : Reach P i j ↔ ∃ k, ReachIn P k i j := by
  constructor
  · intro h
    induction h with
    | refl => exact ⟨0, .refl _⟩
    | tail _ e ih => obtain ⟨k, hk⟩ := ih; exact ⟨k + 1, hk.step e⟩
  · rintro ⟨k, hk⟩
    induction hk with
    | refl => exact Relation.ReflTransGen.refl
    | step _ e ih => exact ih.tail e

theorem ReachIn.reach {P : ι → ι → K} {k : ℕ} {i j : ι} (h : ReachIn P k i j) : Reach P i j :=
  reach_iff_reachIn.2 ⟨k, h⟩

theorem Reach.refl {P : ι → ι → K} (i : ι) : Reach P i i := Relation.ReflTransGen.refl

theorem Reach.trans {P : ι → ι → K} {i j l : ι} (h : Reach P i j) (h' : Reach P j l) :
    Reach P i l := Relation.ReflTransGen.trans h h'

theorem Reach.single {P : ι → ι → K} {i j : ι} (h : Edge P i j) : Reach P i j :=
  Relation.ReflTransGen.single h

theorem reachIn_iff_pow_pos [DecidableEq ι] {P : Matrix ι ι K} (hP : ∀ i j, 0 ≤ P i j) (k : ℕ)
    (i j : ι) : ReachIn P k i j ↔ 0 < (P ^ k) i j := by
  constructor
  · intro h
    induction h with
    | refl => simp
    | @step k i j l _ e ih =>
      rw [pow_succ, Matrix.mul_apply]
      exact sum_pos' (fun m _ => mul_nonneg (nonneg_pow hP k i m) (hP m l))
        ⟨j, mem_univ j, mul_pos ih e⟩
  · induction k generalizing j with
    | zero =>
      intro h
      by_cases hij : i = j
      · subst hij; exact .refl _
      · simp [hij] at h
    | succ k ih =>
      rw [pow_succ, Matrix.mul_apply]
      intro h
      obtain ⟨m, _, hm⟩ := exists_lt_of_sum_lt (s := univ) (f := fun _ => (0 : K))
        (g := fun m => (P ^ k) i m * P m j) (by simpa using h)
      have h1 : 0 < (P ^ k) i m := by
        rcases (nonneg_pow hP k i m).lt_or_eq with h1 | h1
        · exact h1
        · rw [← h1] at hm; simp at hm
      have h2 : 0 < P m j := by
        rcases (hP m j).lt_or_eq with h2 | h2
        · exact h2
        · rw [← h2] at hm; simp at hm
      exact (ih m h1).step h2

/-- A shortest path visits each state at most once. -/
theorem Reach.exists_lt_card {P : ι → ι → K} {i j : ι} (h : Reach P i j) :
    ∃ k, k < Fintype.card ι ∧ ReachIn P k i j := by
  classical
  -- the set of states reachable in at most `k` steps grows until it stabilises
  let S : ℕ → Finset ι := fun k => univ.filter fun m => ∃ l, l ≤ k ∧ ReachIn P l i m
  have mono : ∀ a b, a ≤ b → S a ⊆ S b := by
    intro a b hab m hm
    simp only [S, mem_filter, mem_univ, true_and] at hm ⊢
    obtain ⟨l, hl, hr⟩ := hm
    exact ⟨l, hl.trans hab, hr⟩
  have stab : ∀ k, S (k + 1) = S k → ∀ r, S (k + r) = S k := by
    intro k hk r
    induction r with
    | zero => rfl
    | succ r ih =>
      refine Subset.antisymm ?_ (mono _ _ (by omega))
      intro m hm
      simp only [S, mem_filter, mem_univ, true_and] at hm
      obtain ⟨l, hl, hr⟩ := hm
      cases hr with
      | refl => exact mono 0 k (by omega) (by simp [S]; exact .refl _)
      | @step l' _ x _ hr e =>
        have hx : x ∈ S (k + r) := by
          simp only [S, mem_filter, mem_univ, true_and]; exact ⟨l', by omega, hr⟩
        rw [ih] at hx
        rw [← hk]
        simp only [S, mem_filter, mem_univ, true_and] at hx ⊢
        obtain ⟨l'', hl'', hr''⟩ := hx
        exact ⟨l'' + 1, by omega, hr''.step e⟩
  have key : ∃ k, k < Fintype.card ι ∧ S (k + 1) = S k := by
    by_contra hcon
    push Not at hcon
    have grow : ∀ k, k ≤ Fintype.card ι → k + 1 ≤ (S k).card := by
      intro k
      induction k with
      | zero =>
        intro _
        exact Finset.card_pos.2 ⟨i, by simp [S]; exact .refl _⟩
      | succ k ih =>
        intro hk
        have h1 := ih (by omega)
        have h2 : S k ⊂ S (k + 1) :=
          (Finset.ssubset_iff_subset_ne).2 ⟨mono _ _ (by omega), fun h => hcon k (by omega) h.symm⟩
        have := Finset.card_lt_card h2
        omega
    have h1 := grow (Fintype.card ι) le_rfl
    have h2 := Finset.card_le_univ (S (Fintype.card ι))
    omega
  obtain ⟨k, hk, hs⟩ := key
  obtain ⟨r, hr⟩ := reach_iff_reachIn.1 h
  have : j ∈ S (k + r) := by
    simp only [S, mem_filter, mem_univ, true_and]; exact ⟨r, by omega, hr⟩
  rw [stab k hs r] at this
  simp only [S, mem_filter, mem_univ, true_and] at this
  obtain ⟨l, hl, hr⟩ := this
  exact ⟨l, by omega, hr⟩

theorem closedSet_reach {P : ι → ι → K} {S : ι → Prop} (hS : ClosedSet P S) {i j : ι}
    (hi : S i) (h : Reach P i j) : S j := by
  induction h with
  | refl => exact hi
  | tail _ e ih => exact hS _ _ ih e

/-- In a closed set of states the rows restricted to the set still sum to one. -/
theorem closed_row_sum {P : ι → ι → K} (hP : IsStochastic P) {S : ι → Prop} [DecidablePred S]
    (hS : ClosedSet P S) {i : ι} (hi : S i) : ∑ j ∈ univ.filter S, P i j = 1 := by
  rw [← hP.2 i]
  refine sum_subset (filter_subset _ _) fun j _ hj => ?_
  by_contra hne
  exact hj (by simpa using hS i j hi (lt_of_le_of_ne (hP.1 i j) (Ne.symm hne)))

/-- Every state of a finite chain reaches a recurrent state. -/
theorem exists_recurrent_reach (P : ι → ι → K) (i : ι) : ∃ j, Reach P i j ∧ RecurrentState P j := by
  classical
  -- minimise the number of states reachable
  let R : ι → Finset ι := fun m => univ.filter fun l => Reach P m l
  obtain ⟨j, hj, hmin⟩ := (univ.filter fun l => Reach P i l).exists_min_image (fun m => (R m).card)
    ⟨i, by simpa using Reach.refl i⟩
  simp only [mem_filter, mem_univ, true_and] at hj hmin
  refine ⟨j, hj, fun l hl => ?_⟩
  have hsub : R l ⊆ R j := by
    intro m hm
    simp only [R, mem_filter, mem_univ, true_and] at hm ⊢
    exact hl.trans hm
  have heq : R l = R j := Finset.eq_of_subset_of_card_le hsub (hmin l (hj.trans hl))
  have : j ∈ R j := by simpa [R] using Reach.refl j
  rw [← heq] at this
  simpa [R] using this

end Verif
