import Mathlib.Algebra.Polynomial.Eval.Degree
import Mathlib.Analysis.Calculus.Deriv.Polynomial
import Mathlib.Analysis.SpecialFunctions.Integrals.Basic
import Mathlib.MeasureTheory.Integral.IntervalIntegral.FundThmCalculus
import Mathlib.Topology.Algebra.Polynomial

/-!
# Rules that integrate polynomials

A rule with the nodes `x` and the weights `w` has degree `d` on an interval if it integrates all polynomials up to
degree `d` exactly.
-/

namespace Verif

open Finset Polynomial

/-- The rule integrates polynomials of degree at most `d` exactly. -/
def Integrates {n : ℕ} (x w : Fin n → ℝ) (a b : ℝ) (d : ℕ) : Prop :=
  ∀ p : ℝ[X], p.natDegree ≤ d → ∑ j, w j * p.eval (x j) = ∫ t in a..b, p.eval t

theorem polynomial_integrable (p : ℝ[X]) (a b : ℝ) : IntervalIntegrable (fun t => p.eval t) MeasureTheory.volume a b :=
  p.continuous.intervalIntegrable a b

/-- The integral of a derivative. -/
theorem integral_derivative (p : ℝ[X]) (a b : ℝ) : ∫ t in a..b, p.derivative.eval t = p.eval b - p.eval a :=
  intervalIntegral.integral_eq_sub_of_hasDerivAt (fun t _ => p.hasDerivAt t) (polynomial_integrable _ a b)

theorem Integrates.mono {n : ℕ} {x w : Fin n → ℝ} {a b : ℝ} {d e : ℕ} (h : Integrates x w a b d) (hed : e ≤ d) :
    Integrates x w a b e := fun p hp => h p (hp.trans hed)

/-- It suffices to integrate the powers. -/
theorem integrates_of_powers {n : ℕ} {x w : Fin n → ℝ} {a b : ℝ} {d : ℕ}
    (h : ∀ k ≤ d, ∑ j, w j * x j ^ k = (b ^ (k + 1) - a ^ (k + 1)) / (k + 1)) : Integrates x w a b d := by
  intro p hp
  have e : ∀ t, p.eval t = ∑ k ∈ range (d + 1), p.coeff k * t ^ k := fun t =>
    eval_eq_sum_range' (Nat.lt_succ_of_le hp) t
  simp only [e]
  have hint : ∀ k ∈ range (d + 1), IntervalIntegrable (fun t => p.coeff k * t ^ k) MeasureTheory.volume a b :=
    fun k _ => (by fun_prop : Continuous fun t : ℝ => p.coeff k * t ^ k).intervalIntegrable a b
  rw [intervalIntegral.integral_finsetSum hint]
  simp only [mul_sum]
  rw [sum_comm]
  refine sum_congr rfl fun k hk => ?_
  rw [intervalIntegral.integral_const_mul, integral_pow, ← h k (Nat.lt_succ_iff.1 (mem_range.1 hk)), mul_sum]
  exact sum_congr rfl fun j _ => by ring

/-- It suffices to integrate one polynomial of every degree. -/
theorem integrates_of_sequence {n : ℕ} {x w : Fin n → ℝ} {a b : ℝ} {d : ℕ} (q : ℕ → ℝ[X])
    (hq : ∀ k ≤ d, (q k).degree = k)
    (h : ∀ k ≤ d, ∑ j, w j * (q k).eval (x j) = ∫ t in a..b, (q k).eval t) : Integrates x w a b d := by
  have key : ∀ k ≤ d + 1, ∀ p : ℝ[X], p.degree < k → ∑ j, w j * p.eval (x j) = ∫ t in a..b, p.eval t := by
    intro k
    induction k with
    | zero =>
      intro _ p hp
      have : p = 0 := by
        rw [← degree_eq_bot]
        exact Nat.WithBot.lt_zero_iff.1 hp
      simp [this]
    | succ k ih =>
      intro hk p hp
      have hdk := hq k (by omega)
      have hne : (q k).leadingCoeff ≠ 0 := by
        rw [Ne, leadingCoeff_eq_zero]
        rintro h0
        rw [h0, degree_zero] at hdk
        exact absurd hdk.symm (WithBot.coe_ne_bot)
      have hnat : (q k).natDegree = k := natDegree_eq_of_degree_eq_some hdk
      obtain ⟨c, hc⟩ : ∃ c, c = p.coeff k / (q k).leadingCoeff := ⟨_, rfl⟩
      have hlow : (p - C c * q k).degree < k := by
        rw [degree_lt_iff_coeff_zero]
        intro m hm
        rw [coeff_sub, coeff_C_mul]
        rcases hm.eq_or_lt with rfl | hm
        · have : (q k).coeff k = (q k).leadingCoeff := by rw [leadingCoeff, hnat]
          rw [this, hc, div_mul_cancel₀ _ hne, sub_self]
        · rw [coeff_eq_zero_of_degree_lt (hp.trans_le (by exact_mod_cast hm)),
            coeff_eq_zero_of_degree_lt (hdk.trans_lt (by exact_mod_cast hm)), mul_zero, sub_zero]
      have h1 := ih (by omega) _ hlow
      have h2 := h k (by omega)
      have e : ∀ t, (p - C c * q k).eval t = p.eval t - c * (q k).eval t := fun t => by simp
      simp only [e] at h1
      rw [intervalIntegral.integral_sub (polynomial_integrable _ _ _)
        ((polynomial_integrable _ _ _).const_mul c), intervalIntegral.integral_const_mul, ← h2] at h1
      simp only [mul_sub, sum_sub_distrib] at h1
      have h3 : ∑ j, w j * (c * (q k).eval (x j)) = c * ∑ j, w j * (q k).eval (x j) := by
        rw [mul_sum]
        exact sum_congr rfl fun j _ => by ring
      rw [h3] at h1
      linarith
  intro p hp
  exact key (d + 1) le_rfl p (lt_of_le_of_lt degree_le_natDegree (by exact_mod_cast Nat.lt_succ_of_le hp))

/-- Rules on the interval from `-1` to `1` are moved to other intervals. -/
theorem Integrates.affine {n : ℕ} {x w : Fin n → ℝ} {d : ℕ} (h : Integrates x w (-1) 1 d) (m r : ℝ) :
    Integrates (fun j => m + r * x j) (fun j => r * w j) (m - r) (m + r) d := by
  intro p hp
  have hdeg : (p.comp (C r * X + C m)).natDegree ≤ d := by
    refine natDegree_comp_le.trans ?_
    calc p.natDegree * (C r * X + C m : ℝ[X]).natDegree ≤ p.natDegree * 1 :=
          Nat.mul_le_mul_left _ natDegree_linear_le
      _ ≤ d := by rw [mul_one]; exact hp
  have h1 := h _ hdeg
  have e : ∀ t, (p.comp (C r * X + C m)).eval t = p.eval (r * t + m) := fun t => by simp
  simp only [e] at h1
  have h2 : ∑ j, r * w j * p.eval (m + r * x j) = r * ∑ j, w j * p.eval (r * x j + m) := by
    rw [mul_sum]
    refine sum_congr rfl fun j _ => ?_
    rw [add_comm m]
    ring
  rw [h2, h1, intervalIntegral.mul_integral_comp_mul_add (f := fun t => p.eval t)]
  congr 1 <;> ring

end Verif
