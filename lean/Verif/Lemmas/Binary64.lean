import Mathlib.Algebra.Order.Floor.Ring
import Mathlib.Algebra.Order.Round
import Mathlib.Data.Int.Log
import Mathlib.Data.Rat.Floor
import Mathlib.Tactic.Linarith
import Mathlib.Tactic.NormNum
import Mathlib.Tactic.Ring

/-!
# Rounding to doubles

Round to nearest, ties to even, with 53 bits and without limits of the exponent.
-/

namespace Verif

/-- The nearest integer, the even one of two. -/
def roundEven (x : ℚ) : ℤ :=
  if x - ⌊x⌋ < 1 / 2 then ⌊x⌋ else if 1 / 2 < x - ⌊x⌋ then ⌊x⌋ + 1 else if Even ⌊x⌋ then ⌊x⌋ else ⌊x⌋ + 1

/-- The nearest double. -/
def binary64 (x : ℚ) : ℚ :=
  if x = 0 then 0 else roundEven (x / 2 ^ (Int.log 2 |x| - 52)) * 2 ^ (Int.log 2 |x| - 52)

theorem roundEven_near (x : ℚ) : |(roundEven x : ℚ) - x| ≤ 1 / 2 := by
  have h1 := Int.floor_le x
  have h2 := Int.lt_floor_add_one x
  unfold roundEven
  rw [abs_le]
  split_ifs <;> push_cast <;> constructor <;> linarith

theorem roundEven_intCast (z : ℤ) : roundEven z = z := by
  unfold roundEven
  rw [Int.floor_intCast, sub_self, if_pos (by norm_num)]

theorem roundEven_mono : Monotone roundEven := by
  intro x y hxy
  by_contra hlt
  have hlt := not_le.1 hlt
  have h1 := abs_le.1 (roundEven_near x)
  have h2 := abs_le.1 (roundEven_near y)
  have hz : (roundEven y : ℚ) + 1 ≤ roundEven x := by exact_mod_cast hlt
  have e : x = y := by linarith [h1.1, h1.2, h2.1, h2.2]
  rw [e] at hlt
  exact lt_irrefl _ hlt

theorem binary64_zero : binary64 0 = 0 := by simp [binary64]

/-- The relative error. -/
theorem binary64_near (x : ℚ) : |binary64 x - x| ≤ 1 / 2 ^ 53 * |x| := by
  by_cases hx : x = 0
  · rw [hx, binary64_zero]; simp
  · unfold binary64
    rw [if_neg hx]
    obtain ⟨e, he⟩ : ∃ e, e = Int.log 2 |x| - 52 := ⟨_, rfl⟩
    rw [← he]
    have hp : (0 : ℚ) < 2 ^ e := zpow_pos (by norm_num) e
    have hlog : (2 : ℚ) ^ Int.log 2 |x| ≤ |x| := Int.zpow_log_le_self (by norm_num) (abs_pos.2 hx)
    have hs : (2 : ℚ) ^ Int.log 2 |x| = 2 ^ e * 2 ^ 52 := by
      rw [show Int.log 2 |x| = e + 52 by omega, zpow_add₀ (by norm_num)]
      rfl
    have h := roundEven_near (x / 2 ^ e)
    have e1 : (roundEven (x / 2 ^ e) : ℚ) * 2 ^ e - x = ((roundEven (x / 2 ^ e) : ℚ) - x / 2 ^ e) * 2 ^ e := by
      rw [sub_mul, div_mul_cancel₀ _ hp.ne']
    rw [e1, abs_mul, abs_of_pos hp]
    have e2 : |(roundEven (x / 2 ^ e) : ℚ) - x / 2 ^ e| * 2 ^ e ≤ 1 / 2 * 2 ^ e := mul_le_mul_of_nonneg_right h hp.le
    rw [hs] at hlog
    have e3 : (1 : ℚ) / 2 * 2 ^ e = 1 / 2 ^ 53 * (2 ^ e * 2 ^ 52) := by
      generalize (2 : ℚ) ^ e = g
      norm_num
      ring
    rw [e3] at e2
    exact e2.trans (mul_le_mul_of_nonneg_left hlog (by norm_num))

theorem binary64_of_mul {x : ℚ} (hx : x ≠ 0) {z : ℤ} {e : ℤ} (he : e = Int.log 2 |x| - 52) (hz : x = z * 2 ^ e) :
    binary64 x = x := by
  unfold binary64
  rw [if_neg hx, ← he]
  have hp : (0 : ℚ) < 2 ^ e := zpow_pos (by norm_num) e
  have : x / 2 ^ e = z := by rw [hz, mul_div_cancel_right₀ _ hp.ne']
  rw [this, roundEven_intCast, ← hz]

/-- Between two powers of two. -/
theorem binary64_bounds {x : ℚ} (hx : 0 < x) :
    (2 : ℚ) ^ Int.log 2 x ≤ binary64 x ∧ binary64 x ≤ 2 ^ (Int.log 2 x + 1) := by
  unfold binary64
  rw [if_neg hx.ne', abs_of_pos hx]
  obtain ⟨e, he⟩ : ∃ e, e = Int.log 2 x - 52 := ⟨_, rfl⟩
  rw [← he]
  have hp : (0 : ℚ) < 2 ^ e := zpow_pos (by norm_num) e
  have h1 : (2 : ℚ) ^ Int.log 2 x ≤ x := Int.zpow_log_le_self (by norm_num) hx
  have h2 : x < (2 : ℚ) ^ (Int.log 2 x + 1) := Int.lt_zpow_succ_log_self (by norm_num) x
  have hs : (2 : ℚ) ^ Int.log 2 x = ((2 ^ 52 : ℤ) : ℚ) * 2 ^ e := by
    rw [show Int.log 2 x = 52 + e by omega, zpow_add₀ (by norm_num)]
    norm_num
  have hs2 : (2 : ℚ) ^ (Int.log 2 x + 1) = ((2 ^ 53 : ℤ) : ℚ) * 2 ^ e := by
    rw [show Int.log 2 x + 1 = 53 + e by omega, zpow_add₀ (by norm_num)]
    norm_num
  rw [hs] at h1 ⊢
  rw [hs2] at h2 ⊢
  constructor
  · refine mul_le_mul_of_nonneg_right ?_ hp.le
    have : (2 ^ 52 : ℤ) ≤ roundEven (x / 2 ^ e) := by
      rw [← roundEven_intCast (2 ^ 52)]
      exact roundEven_mono ((le_div_iff₀ hp).2 h1)
    exact_mod_cast this
  · refine mul_le_mul_of_nonneg_right ?_ hp.le
    have : roundEven (x / 2 ^ e) ≤ (2 ^ 53 : ℤ) := by
      rw [← roundEven_intCast (2 ^ 53)]
      exact roundEven_mono ((div_le_iff₀ hp).2 h2.le)
    exact_mod_cast this

theorem binary64_mono {x y : ℚ} (hx : 0 ≤ x) (hxy : x ≤ y) : binary64 x ≤ binary64 y := by
  rcases hx.eq_or_lt with rfl | hx
  · rw [binary64_zero]
    rcases hxy.eq_or_lt with rfl | hy
    · rw [binary64_zero]
    · exact (zpow_pos (by norm_num : (0 : ℚ) < 2) _).le.trans (binary64_bounds hy).1
  · have hy := hx.trans_le hxy
    have hlog : Int.log 2 x ≤ Int.log 2 y := Int.log_mono_right hx hxy
    rcases hlog.eq_or_lt with he | hlt
    · unfold binary64
      rw [if_neg hx.ne', if_neg hy.ne', abs_of_pos hx, abs_of_pos hy, he]
      have hp : (0 : ℚ) < 2 ^ (Int.log 2 y - 52) := zpow_pos (by norm_num) _
      refine mul_le_mul_of_nonneg_right ?_ hp.le
      exact_mod_cast roundEven_mono (div_le_div_of_nonneg_right hxy hp.le)
    · refine (binary64_bounds hx).2.trans (le_trans ?_ (binary64_bounds hy).1)
      exact zpow_le_zpow_right₀ (by norm_num) (by omega)

/-- Doubles stay as they are. -/
theorem binary64_idem {x : ℚ} (hx : 0 ≤ x) : binary64 (binary64 x) = binary64 x := by
  rcases hx.eq_or_lt with rfl | hx
  · rw [binary64_zero, binary64_zero]
  · obtain ⟨h1, h2⟩ := binary64_bounds hx
    obtain ⟨e, he⟩ : ∃ e, e = Int.log 2 x - 52 := ⟨_, rfl⟩
    obtain ⟨y, hy⟩ : ∃ y, y = binary64 x := ⟨_, rfl⟩
    have hyz : y = roundEven (x / 2 ^ e) * 2 ^ e := by
      rw [hy]
      unfold binary64
      rw [if_neg hx.ne', abs_of_pos hx, ← he]
    rw [← hy] at h1 h2 ⊢
    have hy0 : 0 < y := (zpow_pos (by norm_num : (0 : ℚ) < 2) _).trans_le h1
    have hl1 : Int.log 2 x ≤ Int.log 2 y := (Int.zpow_le_iff_le_log (by norm_num) hy0).1 h1
    rcases hl1.eq_or_lt with hl | hl
    · exact binary64_of_mul hy0.ne' (by rw [abs_of_pos hy0, ← hl, ← he]) hyz
    · have h3 : (2 : ℚ) ^ (Int.log 2 x + 1) ≤ y := (Int.zpow_le_iff_le_log (b := 2) (by norm_num) hy0).2 (Int.add_one_le_iff.2 hl)
      have h4 : y = 2 ^ (Int.log 2 x + 1) := le_antisymm h2 h3
      have h5 : Int.log 2 y = Int.log 2 x + 1 := by
        rw [h4]
        exact Int.log_zpow (by norm_num) _
      refine binary64_of_mul (z := 2 ^ 52) hy0.ne' (by rw [abs_of_pos hy0]) ?_
      rw [h5]
      conv_lhs => rw [h4]
      obtain ⟨m, hm⟩ : ∃ m, m = Int.log 2 x + 1 - 52 := ⟨_, rfl⟩
      rw [← hm, show Int.log 2 x + 1 = 52 + m by omega, zpow_add₀ (by norm_num)]
      norm_num

example : binary64 (1 / 10) = 3602879701896397 / 2 ^ 55 := by decide +kernel

end Verif
