import Verif.Lemmas.Binary64

/-!
# Doubles with gradual underflow

As `binary64`, with the smallest exponent of doubles. The largest exponent is not limited.
-/

namespace Verif

/-- The nearest double: below `2 ^ -1022` the doubles are the multiples of `2 ^ -1074`. -/
def double (x : ℚ) : ℚ := if |x| < 1 / 2 ^ 1022 then roundEven (x * 2 ^ 1074) / 2 ^ 1074 else binary64 x

theorem double_zero : double 0 = 0 := by
  unfold double
  rw [abs_zero, if_pos (by positivity), zero_mul, show roundEven 0 = 0 from roundEven_intCast 0]
  simp

theorem pow_lt_split : (2 : ℚ) ^ 1074 = 2 ^ 52 * 2 ^ 1022 := by rw [← pow_add]

theorem double_small {x : ℚ} (h0 : 0 ≤ x) (h : x < 1 / 2 ^ 1022) :
    double x = roundEven (x * 2 ^ 1074) / 2 ^ 1074 := by
  unfold double
  rw [abs_of_nonneg h0, if_pos h]

theorem double_large {x : ℚ} (h : 1 / 2 ^ 1022 ≤ x) : double x = binary64 x := by
  unfold double
  rw [abs_of_nonneg (le_trans (by positivity) h), if_neg (not_lt.2 h)]

theorem double_le_small {x : ℚ} (h0 : 0 ≤ x) (h : x < 1 / 2 ^ 1022) : double x ≤ 1 / 2 ^ 1022 := by
  rw [double_small h0 h]
  have h1 : x * 2 ^ 1074 ≤ ((2 ^ 52 : ℤ) : ℚ) := by
    have := mul_le_mul_of_nonneg_right h.le (by positivity : (0 : ℚ) ≤ 2 ^ 1074)
    refine this.trans (le_of_eq ?_)
    rw [pow_lt_split, one_div, mul_comm, mul_assoc, mul_inv_cancel₀ (by positivity)]
    norm_num
  have h2 : roundEven (x * 2 ^ 1074) ≤ 2 ^ 52 := by
    rw [← roundEven_intCast (2 ^ 52)]
    exact roundEven_mono h1
  have h3 : (roundEven (x * 2 ^ 1074) : ℚ) ≤ 2 ^ 52 := by exact_mod_cast h2
  generalize (roundEven (x * 2 ^ 1074) : ℚ) = r at h3 ⊢
  rw [div_le_div_iff₀ (by positivity) (by positivity), one_mul, pow_lt_split]
  exact mul_le_mul_of_nonneg_right h3 (by positivity)

theorem double_ge_large {x : ℚ} (h : 1 / 2 ^ 1022 ≤ x) : 1 / 2 ^ 1022 ≤ double x := by
  have hx : 0 < x := lt_of_lt_of_le (by positivity) h
  rw [double_large h]
  refine le_trans ?_ (binary64_bounds hx).1
  have h1 : (2 : ℚ) ^ (-1022 : ℤ) = 1 / 2 ^ 1022 := by
    rw [zpow_neg, one_div]
    rfl
  rw [← h1] at h ⊢
  exact zpow_le_zpow_right₀ (by norm_num) ((Int.zpow_le_iff_le_log (b := 2) (by norm_num) hx).1 h)

theorem double_mono {x y : ℚ} (hx : 0 ≤ x) (hxy : x ≤ y) : double x ≤ double y := by
  rcases lt_or_ge y (1 / 2 ^ 1022) with hy | hy
  · rw [double_small hx (hxy.trans_lt hy), double_small (hx.trans hxy) hy]
    refine div_le_div_of_nonneg_right ?_ (by positivity)
    exact_mod_cast roundEven_mono (mul_le_mul_of_nonneg_right hxy (by positivity))
  · rcases lt_or_ge x (1 / 2 ^ 1022) with h | h
    · exact (double_le_small hx h).trans (double_ge_large hy)
    · rw [double_large h, double_large hy]
      exact binary64_mono hx hxy

theorem double_nonneg {x : ℚ} (hx : 0 ≤ x) : 0 ≤ double x := by
  rw [← double_zero]
  exact double_mono le_rfl hx

/-- The powers of two down to the smallest double are doubles. -/
theorem double_pow {t : ℕ} (ht : t ≤ 1074) : double (1 / 2 ^ t) = 1 / 2 ^ t := by
  rcases Nat.lt_or_ge 1022 t with h | h
  · have h1 : (1 : ℚ) / 2 ^ t < 1 / 2 ^ 1022 :=
      one_div_lt_one_div_of_lt (by positivity) (pow_lt_pow_right₀ (by norm_num) h)
    rw [double_small (by positivity) h1]
    have h2 : (1 : ℚ) / 2 ^ t * 2 ^ 1074 = ((2 ^ (1074 - t) : ℤ) : ℚ) := by
      obtain ⟨s, hs⟩ := Nat.exists_eq_add_of_le ht
      rw [hs, Nat.add_sub_cancel_left, pow_add, one_div, ← mul_assoc, inv_mul_cancel₀ (by positivity)]
      push_cast
      rw [one_mul]
    rw [h2, roundEven_intCast, ← h2, mul_div_assoc, div_self (by positivity), mul_one]
  · have h1 : (1 : ℚ) / 2 ^ 1022 ≤ 1 / 2 ^ t :=
      one_div_le_one_div_of_le (by positivity) (pow_le_pow_right₀ (by norm_num) h)
    rw [double_large h1]
    have h2 : (1 : ℚ) / 2 ^ t = 2 ^ (-(t : ℤ)) := by rw [zpow_neg, one_div, zpow_natCast]
    rw [h2]
    have h3 : (0 : ℚ) < 2 ^ (-(t : ℤ)) := zpow_pos (by norm_num) _
    refine binary64_of_mul (z := 2 ^ 52) h3.ne' rfl ?_
    have h4 : Int.log 2 ((2 : ℚ) ^ (-(t : ℤ))) = -(t : ℤ) := Int.log_zpow (by norm_num) _
    rw [abs_of_pos h3, h4]
    obtain ⟨m, hm⟩ : ∃ m, m = -(t : ℤ) - 52 := ⟨_, rfl⟩
    rw [← hm, show -(t : ℤ) = 52 + m by omega, zpow_add₀ (by norm_num)]
    norm_num

/-- Numbers up to half the smallest double become zero. -/
theorem double_underflow {x : ℚ} (h0 : 0 ≤ x) (h : x ≤ 1 / 2 ^ 1075) : double x = 0 := by
  have h1 : (1 : ℚ) / 2 ^ 1075 < 1 / 2 ^ 1022 :=
    one_div_lt_one_div_of_lt (by positivity) (pow_lt_pow_right₀ (by norm_num) (by norm_num))
  rw [double_small h0 (h.trans_lt h1)]
  have h2 : x * 2 ^ 1074 ≤ 1 / 2 := by
    refine (mul_le_mul_of_nonneg_right h (by positivity)).trans (le_of_eq ?_)
    rw [show (2 : ℚ) ^ 1075 = 2 ^ 1074 * 2 from pow_succ 2 1074]
    generalize hg : (2 : ℚ) ^ 1074 = g
    have : g ≠ 0 := by rw [← hg]; positivity
    field_simp
  have h3 : roundEven (x * 2 ^ 1074) ≤ 0 := by
    rw [show (0 : ℤ) = roundEven (1 / 2) by decide +kernel]
    exact roundEven_mono h2
  have h4 : 0 ≤ roundEven (x * 2 ^ 1074) := by
    rw [← roundEven_intCast 0]
    exact roundEven_mono (by positivity)
  rw [le_antisymm h3 h4]
  simp

/-- Relative and absolute error. -/
theorem double_le {x : ℚ} (h0 : 0 ≤ x) : double x ≤ (1 + 1 / 2 ^ 53) * x + 1 / 2 ^ 1075 := by
  rcases lt_or_ge x (1 / 2 ^ 1022) with h | h
  · rw [double_small h0 h]
    have h1 := (abs_le.1 (roundEven_near (x * 2 ^ 1074))).2
    have h2 : (roundEven (x * 2 ^ 1074) : ℚ) / 2 ^ 1074 ≤ (x * 2 ^ 1074 + 1 / 2) / 2 ^ 1074 :=
      div_le_div_of_nonneg_right (sub_le_iff_le_add'.1 h1) (by positivity)
    refine h2.trans ?_
    rw [add_div, mul_div_assoc, div_self (by positivity), mul_one, div_div,
      show (2 : ℚ) * 2 ^ 1074 = 2 ^ 1075 by rw [pow_succ 2 1074, mul_comm]]
    have h3 : 0 ≤ 1 / 2 ^ 53 * x := by positivity
    rw [add_mul, one_mul]
    generalize (1 : ℚ) / 2 ^ 1075 = g
    linarith
  · rw [double_large h]
    have h1 := (abs_le.1 (binary64_near x)).2
    rw [abs_of_nonneg h0] at h1
    have h2 : (0 : ℚ) ≤ 1 / 2 ^ 1075 := by positivity
    generalize (1 : ℚ) / 2 ^ 1075 = g at *
    rw [add_mul, one_mul]
    linarith

example : double (1 / 2 ^ 600 * (1 / 2 ^ 600)) = 0 := by decide +kernel

end Verif
