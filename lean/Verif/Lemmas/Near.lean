import Mathlib.Algebra.Order.BigOperators.Group.Finset
import Mathlib.Algebra.Order.Field.Basic
import Mathlib.Algebra.Order.Ring.Pow
import Mathlib.Algebra.BigOperators.Ring.Finset
import Mathlib.Algebra.BigOperators.Group.List.Basic
import Mathlib.Tactic.Linarith
import Mathlib.Tactic.Positivity
import Mathlib.Tactic.Ring

/-!
# Lemmas: numbers that agree up to a factor

`Near t x y`: none of the two numbers is larger than `t` times the other one. For nonnegative numbers and
`1 ≤ t` this is a bound for the relative error in both directions.
-/

set_option linter.unusedSectionVars false

namespace Verif

open Finset

variable {K : Type*} [Field K] [LinearOrder K] [IsStrictOrderedRing K]

/-- The numbers agree up to the factor `t`. -/
def Near (t x y : K) : Prop := x ≤ t * y ∧ y ≤ t * x

theorem Near.symm {t x y : K} (h : Near t x y) : Near t y x := ⟨h.2, h.1⟩

theorem Near.refl {t x : K} (ht : 1 ≤ t) (hx : 0 ≤ x) : Near t x x :=
  ⟨le_mul_of_one_le_left hx ht, le_mul_of_one_le_left hx ht⟩

theorem Near.trans {s t x y z : K} (hs : 0 ≤ s) (ht : 0 ≤ t) (h1 : Near s x y) (h2 : Near t y z) :
    Near (s * t) x z := by
  constructor
  · rw [mul_assoc]
    exact h1.1.trans (mul_le_mul_of_nonneg_left h2.1 hs)
  · rw [mul_comm s t, mul_assoc]
    exact h2.2.trans (mul_le_mul_of_nonneg_left h1.2 ht)

theorem Near.mono {s t x y : K} (hx : 0 ≤ x) (hy : 0 ≤ y) (hst : s ≤ t) (h : Near s x y) : Near t x y :=
  ⟨h.1.trans (mul_le_mul_of_nonneg_right hst hy), h.2.trans (mul_le_mul_of_nonneg_right hst hx)⟩

theorem Near.nonneg {t x y : K} (ht : 1 ≤ t) (hy : 0 ≤ y) (h : Near t x y) : 0 ≤ x := by
  by_contra hx
  have h1 := h.2
  have : t * x < 0 := mul_neg_of_pos_of_neg (lt_of_lt_of_le one_pos ht) (not_le.1 hx)
  linarith

theorem Near.pos {t x y : K} (ht : 1 ≤ t) (hy : 0 < y) (h : Near t x y) : 0 < x := by
  by_contra hx
  have h1 := h.2
  have : t * x ≤ 0 := mul_nonpos_of_nonneg_of_nonpos (zero_le_one.trans ht) (not_lt.1 hx)
  linarith

theorem Near.pos_iff {t x y : K} (ht : 1 ≤ t) (h : Near t x y) : 0 < x ↔ 0 < y :=
  ⟨fun hx => h.symm.pos ht hx, fun hy => h.pos ht hy⟩

theorem Near.add {t x y x' y' : K} (h : Near t x y) (h' : Near t x' y') : Near t (x + x') (y + y') := by
  constructor
  · rw [mul_add]
    exact add_le_add h.1 h'.1
  · rw [mul_add]
    exact add_le_add h.2 h'.2

theorem Near.mul {s t x y x' y' : K} (hs : 0 ≤ s) (hx : 0 ≤ x) (hy : 0 ≤ y) (hx' : 0 ≤ x')
    (hy' : 0 ≤ y') (h : Near s x y) (h' : Near t x' y') : Near (s * t) (x * x') (y * y') := by
  constructor
  · calc x * x' ≤ (s * y) * (t * y') := mul_le_mul h.1 h'.1 hx' (mul_nonneg hs hy)
      _ = s * t * (y * y') := by ring
  · calc y * y' ≤ (s * x) * (t * x') := mul_le_mul h.2 h'.2 hy' (mul_nonneg hs hx)
      _ = s * t * (x * x') := by ring

theorem Near.const_mul {t x y : K} {c : K} (hc : 0 ≤ c) (h : Near t x y) : Near t (c * x) (c * y) := by
  constructor
  · rw [mul_left_comm]
    exact mul_le_mul_of_nonneg_left h.1 hc
  · rw [mul_left_comm]
    exact mul_le_mul_of_nonneg_left h.2 hc

theorem Near.mul_const {t x y : K} {c : K} (hc : 0 ≤ c) (h : Near t x y) : Near t (x * c) (y * c) := by
  rw [mul_comm x, mul_comm y]
  exact h.const_mul hc

theorem Near.inv {t x y : K} (hx : 0 < x) (hy : 0 < y) (h : Near t x y) : Near t x⁻¹ y⁻¹ := by
  constructor
  · rw [inv_le_iff_one_le_mul₀ hx, mul_assoc, mul_comm y⁻¹, ← mul_assoc, ← div_eq_mul_inv, le_div_iff₀ hy, one_mul]
    exact h.2
  · rw [inv_le_iff_one_le_mul₀ hy, mul_assoc, mul_comm x⁻¹, ← mul_assoc, ← div_eq_mul_inv, le_div_iff₀ hx, one_mul]
    exact h.1

theorem Near.div {s t x y x' y' : K} (hs : 0 ≤ s) (hx : 0 ≤ x) (hy : 0 ≤ y) (hx' : 0 < x')
    (hy' : 0 < y') (h : Near s x y) (h' : Near t x' y') : Near (s * t) (x / x') (y / y') := by
  rw [div_eq_mul_inv, div_eq_mul_inv]
  exact h.mul hs hx hy (inv_pos.2 hx').le (inv_pos.2 hy').le (h'.inv hx' hy')

theorem Near.sum {ι : Type*} {s : Finset ι} {t : K} {f g : ι → K} (h : ∀ i ∈ s, Near t (f i) (g i)) :
    Near t (∑ i ∈ s, f i) (∑ i ∈ s, g i) := by
  constructor
  · rw [mul_sum]
    exact sum_le_sum fun i hi => (h i hi).1
  · rw [mul_sum]
    exact sum_le_sum fun i hi => (h i hi).2

/-- A relative error below one. -/
theorem near_of_relative {u x y : K} (hu : u < 1) (hu0 : 0 ≤ u) (hy : 0 ≤ y) (h : |x - y| ≤ u * y) :
    Near (1 / (1 - u)) x y := by
  have h1 : 0 < 1 - u := by linarith
  obtain ⟨h2, h3⟩ := abs_le.1 h
  constructor
  · rw [div_mul_eq_mul_div, one_mul, le_div_iff₀ h1]
    have : x * (1 - u) ≤ (y + u * y) * (1 - u) := mul_le_mul_of_nonneg_right (by linarith) h1.le
    nlinarith [mul_nonneg (mul_nonneg hu0 hu0) hy]
  · rw [div_mul_eq_mul_div, one_mul, le_div_iff₀ h1]
    linarith

/-- Numbers that agree up to a factor have a small relative error. -/
theorem Near.relative {t x y : K} (ht : 1 ≤ t) (hy : 0 ≤ y) (h : Near t x y) :
    |x - y| ≤ (t - 1) * y := by
  rw [abs_le]
  constructor
  · have h1 := h.2
    by_contra hc
    have h2 : (t - 1) * y < y - x := by linarith
    have h3 : 0 ≤ (t - 1) * ((t - 1) * y) := by
      have : 0 ≤ t - 1 := by linarith
      positivity
    have h4 : t * x < t * (y - (t - 1) * y) := mul_lt_mul_of_pos_left (by linarith) (by linarith)
    nlinarith
  · have h1 := h.1
    linarith

theorem one_le_factor {u : K} (hu0 : 0 ≤ u) (hu : u < 1) : 1 ≤ 1 / (1 - u) := by
  rw [le_div_iff₀ (by linarith)]
  linarith

/-- Powers of the factor of one rounding. -/
theorem factor_pow_le {u : K} (hu0 : 0 ≤ u) (hu : u < 1) (N : ℕ) (h : N * u ≤ 1 / 2) :
    (1 / (1 - u)) ^ N ≤ 1 + 2 * (N * u) := by
  have h1 : 1 + (N : K) * (-u) ≤ (1 + (-u)) ^ N := one_add_mul_le_pow (by linarith) N
  have h2 : 0 < 1 - (N : K) * u := by linarith
  have h3 : (1 - u) ^ N = (1 + (-u)) ^ N := by ring
  have h0 : 0 ≤ (N : K) * u := by positivity
  rw [one_div, inv_pow]
  refine (inv_anti₀ h2 (by rw [h3]; linarith)).trans ?_
  rw [inv_le_iff_one_le_mul₀ h2]
  nlinarith

end Verif
