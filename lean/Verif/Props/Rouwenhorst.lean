import Verif.Lemmas.Generators
import Verif.Lemmas.Chain
import Mathlib.Data.Nat.Choose.Sum
import Mathlib.Algebra.Polynomial.Derivative
import Mathlib.Tactic.FinCases
import Mathlib.Tactic.IntervalCases
import Mathlib.Tactic.NormNum

/-!
# Property C18: the Rouwenhorst approximation
-/

set_option linter.unusedSectionVars false
set_option linter.unusedSimpArgs false

namespace Verif

open Polynomial

variable {K : Type} [Field K] [LinearOrder K] [IsStrictOrderedRing K]

/-- The matrix as a function of natural indices, zero outside. -/
def rwN (z : K) (n a b : ℕ) : K :=
  if h : a < n + 2 ∧ b < n + 2 then rouwenhorst z n ⟨a, h.1⟩ ⟨b, h.2⟩ else 0

theorem rwN_of_ge_row {z : K} {n a b : ℕ} (h : n + 2 ≤ a) : rwN z n a b = 0 := by
  unfold rwN; rw [dif_neg (by omega)]

theorem rwN_of_ge_col {z : K} {n a b : ℕ} (h : n + 2 ≤ b) : rwN z n a b = 0 := by
  unfold rwN; rw [dif_neg (by omega)]

theorem rwN_fin (z : K) (n : ℕ) (i j : Fin (n + 2)) : rouwenhorst z n i j = rwN z n i j := by
  unfold rwN; rw [dif_pos ⟨i.isLt, j.isLt⟩]

/-- The sum of the four shifted blocks. -/
def rwSum (z : K) (n a b : ℕ) : K :=
  z * rwN z n a b + (if 1 ≤ b then (1 - z) * rwN z n a (b - 1) else 0) +
    (if 1 ≤ a then (1 - z) * rwN z n (a - 1) b else 0) +
    (if 1 ≤ a ∧ 1 ≤ b then z * rwN z n (a - 1) (b - 1) else 0)

theorem rwN_succ {z : K} {n a b : ℕ} (ha : a < n + 3) (hb : b < n + 3) :
    rwN z (n + 1) a b = if 1 ≤ a ∧ a < n + 2 then rwSum z n a b / 2 else rwSum z n a b := by
  conv_lhs => unfold rwN
  rw [dif_pos ⟨by omega, by omega⟩]
  rfl

/-- Generating polynomial of a row. -/
noncomputable def rowPoly (z : K) (n a : ℕ) : K[X] :=
  ∑ b ∈ Finset.range (n + 2), C (rwN z n a b) * X ^ b

noncomputable def upPoly (z : K) : K[X] := C z + C (1 - z) * X
noncomputable def downPoly (z : K) : K[X] := C (1 - z) + C z * X

theorem rwSum_poly (z : K) (n a : ℕ) :
    ∑ b ∈ Finset.range (n + 3), C (rwSum z n a b) * X ^ b =
      upPoly z * rowPoly z n a + if 1 ≤ a then downPoly z * rowPoly z n (a - 1) else 0 := by
  have s1 : ∀ a, ∑ b ∈ Finset.range (n + 3), C (rwN z n a b) * X ^ b = rowPoly z n a := by
    intro a
    rw [Finset.sum_range_succ, rwN_of_ge_col le_rfl]
    simp [rowPoly]
  have s2 : ∀ a, ∑ b ∈ Finset.range (n + 3),
      C (if 1 ≤ b then rwN z n a (b - 1) else 0) * X ^ b = X * rowPoly z n a := by
    intro a
    rw [Finset.sum_range_succ']
    simp only [Nat.le_add_left, if_true, Nat.add_sub_cancel, nonpos_iff_eq_zero, one_ne_zero,
      if_false, map_zero, zero_mul, add_zero, rowPoly, Finset.mul_sum]
    exact Finset.sum_congr rfl fun b _ => by ring
  have e : ∀ b, C (rwSum z n a b) * X ^ b =
      C z * (C (rwN z n a b) * X ^ b) +
      C (1 - z) * (C (if 1 ≤ b then rwN z n a (b - 1) else 0) * X ^ b) +
      (if 1 ≤ a then C (1 - z) * (C (rwN z n (a - 1) b) * X ^ b) +
        C z * (C (if 1 ≤ b then rwN z n (a - 1) (b - 1) else 0) * X ^ b) else 0) := by
    intro b
    unfold rwSum
    by_cases ha : 1 ≤ a <;> by_cases hb : 1 ≤ b <;>
      simp only [ha, hb, true_and, and_true, if_true, if_false, and_self, map_add, map_mul,
        map_zero] <;> ring
  simp only [e, Finset.sum_add_distrib, ← Finset.mul_sum, s1, s2]
  by_cases ha : 1 ≤ a
  · simp only [ha, if_true, Finset.sum_add_distrib, ← Finset.mul_sum, s1, s2]
    unfold upPoly downPoly
    ring
  · simp only [ha, if_false, Finset.sum_const_zero]
    unfold upPoly
    ring

theorem rowPoly_succ (z : K) (n a : ℕ) (ha : a < n + 3) :
    rowPoly z (n + 1) a = C (if 1 ≤ a ∧ a < n + 2 then 1 / 2 else 1) *
      (upPoly z * rowPoly z n a + if 1 ≤ a then downPoly z * rowPoly z n (a - 1) else 0) := by
  rw [← rwSum_poly, Finset.mul_sum]
  unfold rowPoly
  refine Finset.sum_congr rfl fun b hb => ?_
  rw [rwN_succ ha (Finset.mem_range.1 hb), ← mul_assoc, ← C_mul]
  congr 2
  split_ifs <;> ring

/-- Row `a` of the matrix of size `n + 2` is the law of a sum of `n + 1 - a` and `a` independent
coins. -/
theorem rowPoly_eq (z : K) (n a : ℕ) (ha : a < n + 2) :
    rowPoly z n a = upPoly z ^ (n + 1 - a) * downPoly z ^ a := by
  induction n generalizing a with
  | zero =>
    have : a = 0 ∨ a = 1 := by omega
    rcases this with rfl | rfl
    · simp [rowPoly, Finset.sum_range_succ, rwN, rouwenhorst, upPoly]
    · simp [rowPoly, Finset.sum_range_succ, rwN, rouwenhorst, downPoly]
  | succ n ih =>
    rw [rowPoly_succ z n a (by omega)]
    by_cases h0 : a = 0
    · subst h0
      simp [ih 0 (by omega), pow_succ]; ring
    by_cases hl : a = n + 2
    · subst hl
      have hz : rowPoly z n (n + 2) = 0 := by
        unfold rowPoly
        exact Finset.sum_eq_zero fun b _ => by rw [rwN_of_ge_row le_rfl]; simp
      rw [hz, if_neg (by omega), if_pos (by omega), ih _ (by omega)]
      simp [pow_succ]; ring
    · rw [if_pos (by omega), if_pos (by omega), ih a (by omega), ih (a - 1) (by omega)]
      obtain ⟨a, rfl⟩ : ∃ b, a = b + 1 := ⟨a - 1, by omega⟩
      have e1 : n + 1 + 1 - (a + 1) = (n + 1 - (a + 1)) + 1 := by omega
      have e2 : n + 1 - (a + 1 - 1) = (n + 1 - (a + 1)) + 1 := by omega
      rw [e1, e2, Nat.add_sub_cancel]
      have : (C (1 / 2) : K[X]) * 2 = 1 := by
        have : (2 : K[X]) = C 2 := rfl
        rw [this, ← C_mul]; norm_num
      rw [show upPoly z * (upPoly z ^ (n + 1 - (a + 1)) * downPoly z ^ (a + 1)) +
        downPoly z * (upPoly z ^ (n + 1 - (a + 1) + 1) * downPoly z ^ a) =
        2 * (upPoly z ^ (n + 1 - (a + 1) + 1) * downPoly z ^ (a + 1)) by ring, ← mul_assoc, this,
        one_mul]

theorem rwN_nonneg {z : K} (h0 : 0 ≤ z) (h1 : z ≤ 1) (n a b : ℕ) : 0 ≤ rwN z n a b := by
  have h1' : 0 ≤ 1 - z := by linarith
  induction n generalizing a b with
  | zero =>
    by_cases h : a < 2 ∧ b < 2
    · obtain ⟨ha, hb⟩ := h
      interval_cases a <;> interval_cases b <;> simp [rwN, rouwenhorst, h0, h1]
    · unfold rwN; rw [dif_neg h]
  | succ n ih =>
    by_cases h : a < n + 3 ∧ b < n + 3
    · rw [rwN_succ h.1 h.2]
      have : 0 ≤ rwSum z n a b := by
        unfold rwSum
        refine add_nonneg (add_nonneg (add_nonneg (mul_nonneg h0 (ih _ _)) ?_) ?_) ?_ <;>
          split_ifs <;> first | exact le_rfl | exact mul_nonneg h0 (ih _ _)
                              | exact mul_nonneg h1' (ih _ _)
      split_ifs
      · linarith
      · exact this
    · unfold rwN; rw [dif_neg h]

theorem rwN_centro (z : K) (n a b : ℕ) (ha : a < n + 2) (hb : b < n + 2) :
    rwN z n (n + 1 - a) (n + 1 - b) = rwN z n a b := by
  induction n generalizing a b with
  | zero => interval_cases a <;> interval_cases b <;> simp [rwN, rouwenhorst]
  | succ n ih =>
    have key : ∀ a b, a < n + 3 → b < n + 3 →
        rwSum z n (n + 2 - a) (n + 2 - b) = rwSum z n a b := by
      intro a b ha hb
      have g : ∀ x y, x < n + 3 → y < n + 3 → 1 ≤ x → 1 ≤ y →
          rwN z n (n + 2 - x) (n + 2 - y) = rwN z n (x - 1) (y - 1) := by
        intro x y hx hy h1 h2
        rw [← ih (x - 1) (y - 1) (by omega) (by omega)]
        congr 1 <;> omega
      unfold rwSum
      -- the four blocks swap pairwise
      have t1 : z * rwN z n (n + 2 - a) (n + 2 - b) =
          if 1 ≤ a ∧ 1 ≤ b then z * rwN z n (a - 1) (b - 1) else 0 := by
        split_ifs with h
        · rw [g a b ha hb h.1 h.2]
        · rcases not_and_or.1 h with h | h
          · rw [rwN_of_ge_row (by omega), mul_zero]
          · rw [rwN_of_ge_col (by omega), mul_zero]
      have t4 : (if 1 ≤ n + 2 - a ∧ 1 ≤ n + 2 - b then
          z * rwN z n (n + 2 - a - 1) (n + 2 - b - 1) else 0) = z * rwN z n a b := by
        split_ifs with h
        · rw [← ih a b (by omega) (by omega)]
          congr 2 <;> omega
        · rcases not_and_or.1 h with h | h
          · rw [rwN_of_ge_row (by omega), mul_zero]
          · rw [rwN_of_ge_col (by omega), mul_zero]
      have t2 : (if 1 ≤ n + 2 - b then (1 - z) * rwN z n (n + 2 - a) (n + 2 - b - 1) else 0) =
          if 1 ≤ a then (1 - z) * rwN z n (a - 1) b else 0 := by
        by_cases h1 : 1 ≤ n + 2 - b <;> by_cases h2 : 1 ≤ a
        · rw [if_pos h1, if_pos h2, ← ih (a - 1) b (by omega) (by omega)]
          congr 2 <;> omega
        · rw [if_pos h1, if_neg h2, rwN_of_ge_row (by omega), mul_zero]
        · rw [if_neg h1, if_pos h2, rwN_of_ge_col (by omega), mul_zero]
        · rw [if_neg h1, if_neg h2]
      have t3 : (if 1 ≤ n + 2 - a then (1 - z) * rwN z n (n + 2 - a - 1) (n + 2 - b) else 0) =
          if 1 ≤ b then (1 - z) * rwN z n a (b - 1) else 0 := by
        by_cases h1 : 1 ≤ n + 2 - a <;> by_cases h2 : 1 ≤ b
        · rw [if_pos h1, if_pos h2, ← ih a (b - 1) (by omega) (by omega)]
          congr 2 <;> omega
        · rw [if_pos h1, if_neg h2, rwN_of_ge_col (by omega), mul_zero]
        · rw [if_neg h1, if_pos h2, rwN_of_ge_row (by omega), mul_zero]
        · rw [if_neg h1, if_neg h2]
      rw [t1, t2, t3, t4]
      ring
    rw [rwN_succ (by omega) (by omega), rwN_succ ha hb]
    rw [show n + 1 + 1 - a = n + 2 - a by omega, show n + 1 + 1 - b = n + 2 - b by omega,
      key a b (by omega) (by omega)]
    have : (1 ≤ n + 2 - a ∧ n + 2 - a < n + 2) ↔ (1 ≤ a ∧ a < n + 2) := by omega
    simp only [this]

theorem eval_rowPoly (z : K) (n a : ℕ) :
    (rowPoly z n a).eval 1 = ∑ b ∈ Finset.range (n + 2), rwN z n a b := by
  simp [rowPoly, eval_finsetSum]

theorem rw_row_sum (z : K) (n a : ℕ) (ha : a < n + 2) :
    ∑ b ∈ Finset.range (n + 2), rwN z n a b = 1 := by
  rw [← eval_rowPoly, rowPoly_eq z n a ha]
  simp [upPoly, downPoly]

theorem rw_row_mean (z : K) (n a : ℕ) (ha : a < n + 2) :
    ∑ b ∈ Finset.range (n + 2), rwN z n a b * b = ((n + 1 - a : ℕ) : K) * (1 - z) + a * z := by
  have h1 : (derivative (rowPoly z n a)).eval 1 = ∑ b ∈ Finset.range (n + 2), rwN z n a b * b := by
    simp [rowPoly, derivative_sum, eval_finsetSum, derivative_X_pow]
  rw [← h1, rowPoly_eq z n a ha]
  simp [upPoly, downPoly, derivative_mul, derivative_pow]

theorem rw_stationary (z : K) (n b : ℕ) (hb : b < n + 2) :
    ∑ a ∈ Finset.range (n + 2), ((n + 1).choose a : K) * rwN z n a b = ((n + 1).choose b : K) := by
  have h : ∑ a ∈ Finset.range (n + 2), C ((n + 1).choose a : K) * rowPoly z n a = (1 + X) ^ (n + 1) := by
    have e : (1 + X : K[X]) = downPoly z + upPoly z := by
      unfold upPoly downPoly
      rw [show C (1 - z) + C z * X + (C z + C (1 - z) * X) = (C (1 - z) + C z) * (1 + X) by ring,
        ← C_add]
      simp
    rw [e, add_pow]
    refine Finset.sum_congr rfl fun a ha => ?_
    rw [rowPoly_eq z n a (Finset.mem_range.1 ha)]
    simp
    ring
  have hc := congrArg (fun q => q.coeff b) h
  simp only [finsetSum_coeff, coeff_C_mul] at hc
  have e2 : ∀ a, (rowPoly z n a).coeff b = rwN z n a b := by
    intro a
    simp only [rowPoly, finsetSum_coeff, coeff_C_mul, coeff_X_pow]
    simp [hb]
  simp only [e2] at hc
  rw [hc, coeff_one_add_X_pow]

/-- The binomial law with parameters `n - 1` and `1/2`. -/
def binomialHalf (n : ℕ) (i : Fin n) : K := ((n - 1).choose i : K) / 2 ^ (n - 1)

/-- C18. For every size and every autocorrelation in `[-1, 1]` the Rouwenhorst matrix is a valid
chain, is centro-symmetric, has the binomial law as stationary distribution, and its conditional
mean on the evenly spaced grid `2 i / (n - 1) - 1` is `rho` times the current value, as for the
autoregressive process it approximates. -/
theorem C18_rouwenhorst {size alpha sigma rho states : PyVal K} {c : MC K}
    (h : approximationRouwenhorst size alpha sigma rho states = .ok c) :
    size = .int c.n ∧ c.Valid ∧ (∀ i j : Fin c.n, c.p i.rev j.rev = c.p i j) ∧
      IsStationary c.p (binomialHalf c.n) ∧
      ∃ r : K, rho = .float (.fin r) ∧ -1 ≤ r ∧ r ≤ 1 ∧
        ∀ i : Fin c.n, ∑ j : Fin c.n, c.p i j * (2 * ((j : ℕ) : K) / ((c.n - 1 : ℕ) : K) - 1) =
          r * (2 * ((i : ℕ) : K) / ((c.n - 1 : ℕ) : K) - 1) := by
  unfold approximationRouwenhorst at h
  rw [R.bind_ok] at h
  obtain ⟨z, hz, h⟩ := h
  rw [R.bind_ok] at h
  obtain ⟨_, -, h⟩ := h
  rw [R.bind_ok] at h
  obtain ⟨_, -, h⟩ := h
  rw [R.bind_ok] at h
  obtain ⟨r, hr, h⟩ := h
  rw [R.bind_ok] at h
  obtain ⟨l, hl, h⟩ := h
  rw [R.pure_ok] at h
  generalize hN : z.toNat - 2 = n at h
  subst h
  obtain ⟨rfl, hz⟩ := validateInteger_ge hz
  obtain ⟨rfl, r0, r1⟩ := validateFloat_closed hr
  obtain rfl : z = n + 2 := by omega
  have en' : ((n : ℤ) + 2).toNat = n + 2 := by omega
  rw [en'] at hl
  have hst : IsStochastic (rouwenhorst ((1 + r) / 2) n) := by
    constructor
    · intro i j
      rw [rwN_fin]
      exact rwN_nonneg (by linarith) (by linarith) _ _ _
    · intro i
      simp only [rwN_fin]
      rw [Fin.sum_univ_eq_sum_range (fun j => rwN ((1 + r) / 2) n i j)]
      exact rw_row_sum _ _ _ i.isLt
  have h2 : (0 : K) < 2 ^ (n + 1) := by positivity
  refine ⟨by simp, ⟨by simp, hst, labelsOrDefault_sound hl⟩, ?_, ⟨⟨?_, ?_⟩, ?_⟩,
    r, rfl, r0, r1, ?_⟩
  · intro i j
    simp only [rwN_fin]
    have := rwN_centro ((1 + r) / 2) n i j i.isLt j.isLt
    rw [← this]
    simp only [Fin.val_rev]
    congr 1 <;> omega
  · intro i
    unfold binomialHalf
    positivity
  · simp only [binomialHalf, Nat.add_sub_cancel]
    rw [← Finset.sum_div, Fin.sum_univ_eq_sum_range (fun j => ((n + 2 - 1).choose j : K))]
    rw [div_eq_one_iff_eq (by positivity)]
    have := Nat.sum_range_choose (n + 1)
    exact_mod_cast this
  · intro j
    simp only [binomialHalf, rwN_fin]
    rw [Fin.sum_univ_eq_sum_range
      (fun a => ((n + 2 - 1).choose a : K) / 2 ^ (n + 2 - 1) * rwN ((1 + r) / 2) n a j)]
    simp only [div_mul_eq_mul_div, ← Finset.sum_div]
    congr 1
    exact rw_stationary _ n j j.isLt
  · intro i
    simp only [rwN_fin]
    rw [Fin.sum_univ_eq_sum_range (fun j => rwN ((1 + r) / 2) n i j *
      (2 * (j : K) / ((n + 2 - 1 : ℕ) : K) - 1))]
    have hm := rw_row_mean ((1 + r) / 2) n i i.isLt
    have hs := rw_row_sum ((1 + r) / 2) n i i.isLt
    have hN : (((n + 2 - 1 : ℕ) : K)) ≠ 0 := by
      have : n + 2 - 1 ≠ 0 := by omega
      exact_mod_cast this
    have e : ∀ j : ℕ, rwN ((1 + r) / 2) n i j * (2 * (j : K) / ((n + 2 - 1 : ℕ) : K) - 1) =
        2 / ((n + 2 - 1 : ℕ) : K) * (rwN ((1 + r) / 2) n i j * j) - rwN ((1 + r) / 2) n i j := by
      intro j; field_simp
    simp only [e, Finset.sum_sub_distrib, ← Finset.mul_sum, hm, hs]
    have hi : ((n + 1 - (i : ℕ) : ℕ) : K) = ((n + 2 - 1 : ℕ) : K) - (i : ℕ) := by
      have hi : (i : ℕ) < n + 2 := i.isLt
      rw [Nat.cast_sub (by omega)]
      simp
    rw [hi]
    field_simp
    ring

/-- Every size and autocorrelation is accepted. -/
theorem C18_accepts {n : ℕ} (hn : 2 ≤ n) {r s : K} (hs : 0 < s) (h0 : -1 ≤ r) (h1 : r ≤ 1) :
    ∃ c, approximationRouwenhorst (.int n) (.float (.fin 0)) (.float (.fin s)) (.float (.fin r))
      .none = .ok c := by
  unfold approximationRouwenhorst
  rw [validateInteger_of_ge (by omega), R.ok_bind]
  have a : validateFloat (.float (.fin (0 : K))) none none = .ok 0 := by
    rw [C03_float_limits]; simp [WithinLimits]
  have b : validateFloat (.float (.fin s)) (some (0, true)) none = .ok s := by
    rw [C03_float_limits]; simp [WithinLimits, hs]
  rw [a, R.ok_bind, b, R.ok_bind, validateFloat_of_closed h0 h1, R.ok_bind]
  exact ⟨_, rfl⟩

end Verif
