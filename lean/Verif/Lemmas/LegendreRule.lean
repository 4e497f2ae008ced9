import Verif.Model.Fitting
import Verif.Lemmas.LegendreRoots

/-!
# The iteration of the Gauss-Legendre rule

The inner loop evaluates the Legendre polynomials, the iteration is Newton's, and it ends close to their roots.
-/

set_option linter.unusedSectionVars false

namespace Verif

open Finset Polynomial

theorem legendrePair_eq (z : ℝ) (n : ℕ) : legendrePair z (n + 1) = ((leg (n + 1)).eval z, (leg n).eval z) := by
  induction n with
  | zero =>
    simp [legendrePair, leg]
    ring
  | succ n ih =>
    rw [legendrePair, ih]
    refine Prod.ext ?_ rfl
    have h := leg_eval_recurrence n z
    have hn : (((n + 1 : ℕ) : ℝ) + 1) ≠ 0 := by positivity
    simp only
    rw [div_eq_iff hn]
    push_cast at hn ⊢
    linear_combination -h

theorem legendreSlope_eq {n : ℕ} {z : ℝ} (hz : z ^ 2 ≠ 1) : legendreSlope n z = (derivative (leg n)).eval z := by
  cases n with
  | zero => simp [legendreSlope, leg]
  | succ n =>
    have h := congrArg (eval z) (leg_derivatives n).1
    simp only [eval_mul, eval_sub, eval_one, eval_pow, eval_X, eval_C] at h
    have h1 : z ^ 2 - 1 ≠ 0 := sub_ne_zero.2 hz
    rw [legendreSlope, legendrePair_eq, ← mul_div_assoc, div_eq_iff h1]
    push_cast
    linear_combination h

/-- What the iteration returns. -/
theorem legendreLoop_some {n h : ℕ} {fuel : ℕ} {z0 z pp : Fin h → ℝ} (e : legendreLoop n fuel z0 = some (z, pp)) :
    ∃ y : Fin h → ℝ, ∀ i, y i ^ 2 ≠ 1 ∧ legendreSlope n (y i) ≠ 0 ∧ z i = legendreStep n (y i) ∧
      pp i = legendreSlope n (y i) ∧ |z i - y i| ≤ 1 / 10 ^ 8 := by
  induction fuel generalizing z0 with
  | zero => simp [legendreLoop] at e
  | succ fuel ih =>
    rw [legendreLoop] at e
    split at e
    · simp at e
    · next hbad =>
      push Not at hbad
      split at e
      · next hclose =>
        simp only [Option.some.injEq, Prod.mk.injEq] at e
        obtain ⟨rfl, rfl⟩ := e
        refine ⟨z0, fun i => ⟨(hbad i).1, (hbad i).2, rfl, rfl, ?_⟩⟩
        have := hclose i
        rwa [sub_zero, abs_abs] at this
      · exact ih e

/-- Every returned value is close to a root. -/
theorem legendreLoop_root {n h : ℕ} (hn : 0 < n) {fuel : ℕ} {z0 z pp : Fin h → ℝ}
    (e : legendreLoop n fuel z0 = some (z, pp)) (i : Fin h) :
    ∃ x, (leg n).eval x = 0 ∧ |z i - x| ≤ (n + 1) / 10 ^ 8 := by
  obtain ⟨y, hy⟩ := legendreLoop_some e
  obtain ⟨h1, h2, h3, -, h5⟩ := hy i
  rw [legendreSlope_eq h1] at h2
  have h6 : |(leg n).eval (y i) / (derivative (leg n)).eval (y i)| ≤ 1 / 10 ^ 8 := by
    rw [h3, legendreStep, legendreSlope_eq h1] at h5
    obtain ⟨m, rfl⟩ : ∃ m, n = m + 1 := ⟨n - 1, by omega⟩
    rw [legendrePair_eq] at h5
    simp only at h5
    rwa [sub_sub_cancel_left, abs_neg] at h5
  obtain ⟨x, hx, hd⟩ := leg_newton hn (by positivity) h2 h6
  refine ⟨x, hx, ?_⟩
  have h7 := abs_sub_le (z i) (y i) x
  have h8 : ((n : ℝ) + 1) / 10 ^ 8 = 1 / 10 ^ 8 + n * (1 / 10 ^ 8) := by ring
  rw [h8]
  linarith

/-- Up to 463 nodes every returned value lies in the open unit interval. -/
theorem legendreLoop_inside {n h : ℕ} (hn : 0 < n) (hle : n ≤ 463) {fuel : ℕ} {z0 z pp : Fin h → ℝ}
    (e : legendreLoop n fuel z0 = some (z, pp)) (i : Fin h) : z i ^ 2 < 1 := by
  obtain ⟨x, hx, hd⟩ := legendreLoop_root hn e i
  have h1 := leg_root_inside hx
  have hn' : (0 : ℝ) < n := by exact_mod_cast hn
  have hle' : (n : ℝ) ≤ 463 := by exact_mod_cast hle
  have h2 : ((n : ℝ) + 1) / 10 ^ 8 < 1 / (n * (n + 1)) := by
    rw [div_lt_div_iff₀ (by norm_num) (by positivity)]
    have h3 : ((n : ℝ) + 1) ^ 2 ≤ 464 ^ 2 := pow_le_pow_left₀ (by positivity) (by linarith) 2
    nlinarith
  have h3 : |z i| < 1 := by
    have := abs_sub_abs_le_abs_sub (z i) x
    linarith
  exact (sq_lt_one_iff_abs_lt_one _).2 h3

end Verif
