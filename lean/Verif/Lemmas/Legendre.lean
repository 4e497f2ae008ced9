import Verif.Lemmas.Integration
import Mathlib.LinearAlgebra.Lagrange

/-!
# Legendre polynomials

The polynomials are defined by their recurrence. The Gauss rule at their roots integrates polynomials of degree
`2 n - 1` exactly.
-/

set_option linter.unusedSectionVars false

namespace Verif

open Finset Polynomial

/-- The Legendre polynomials. -/
noncomputable def leg : ℕ → ℝ[X]
  | 0 => 1
  | 1 => X
  | j + 2 => C (1 / ((j : ℝ) + 2)) * (C (2 * (j : ℝ) + 3) * X * leg (j + 1) - C ((j : ℝ) + 1) * leg j)

theorem leg_recurrence (j : ℕ) :
    C ((j : ℝ) + 2) * leg (j + 2) = C (2 * (j : ℝ) + 3) * X * leg (j + 1) - C ((j : ℝ) + 1) * leg j := by
  rw [leg, ← mul_assoc, ← C_mul, mul_one_div_cancel (by positivity), C_1, one_mul]

theorem leg_eval_recurrence (j : ℕ) (x : ℝ) : ((j : ℝ) + 2) * (leg (j + 2)).eval x =
    (2 * (j : ℝ) + 3) * x * (leg (j + 1)).eval x - ((j : ℝ) + 1) * (leg j).eval x := by
  have h := congrArg (eval x) (leg_recurrence j)
  simpa using h

/-- The two formulas for the derivative. -/
theorem leg_derivatives (n : ℕ) :
    (1 - X ^ 2) * derivative (leg (n + 1)) = C ((n : ℝ) + 1) * (leg n - X * leg (n + 1)) ∧
    (1 - X ^ 2) * derivative (leg n) = C ((n : ℝ) + 1) * (X * leg n - leg (n + 1)) := by
  induction n with
  | zero =>
    simp only [leg, derivative_one, derivative_X]
    simp
    ring
  | succ n ih =>
    obtain ⟨h1, h2⟩ := ih
    have hr := leg_recurrence n
    have hr' := congrArg derivative hr
    rw [derivative_C_mul, derivative_sub, derivative_C_mul, mul_assoc, derivative_C_mul, derivative_mul, derivative_X] at hr'
    have c1 : (C (2 * (n : ℝ) + 3) : ℝ[X]) = 2 * C (n : ℝ) + 3 := by
      rw [C_add, C_mul]
      rfl
    have c2 : (C ((n : ℝ) + 2) : ℝ[X]) = C (n : ℝ) + 2 := by
      rw [C_add]
      rfl
    have c3 : (C ((n : ℝ) + 1) : ℝ[X]) = C (n : ℝ) + 1 := by
      rw [C_add]
      rfl
    have c4 : (C (((n + 1 : ℕ) : ℝ) + 1) : ℝ[X]) = C (n : ℝ) + 2 := by
      rw [← c2]
      congr 1
      push_cast
      ring
    have hne : (C (n : ℝ) + 2 : ℝ[X]) ≠ 0 := by
      rw [← c2, Ne, C_eq_zero]
      positivity
    rw [c4]
    rw [c1, c2, c3] at hr hr'
    rw [c3] at h1 h2
    refine ⟨mul_left_cancel₀ hne ?_, ?_⟩
    · linear_combination (1 - X ^ 2) * hr' + (2 * C (n : ℝ) + 3) * X * h1 - (C (n : ℝ) + 1) * h2 +
        (C (n : ℝ) + 2) * X * hr
    · linear_combination h1 + hr

/-- The differential equation. -/
theorem leg_equation (n : ℕ) :
    derivative ((1 - X ^ 2) * derivative (leg n)) = -(C ((n : ℝ) * (n + 1)) * leg n) := by
  cases n with
  | zero => simp [leg]
  | succ n =>
    obtain ⟨h1, h2⟩ := leg_derivatives n
    have hX : (1 - X ^ 2 : ℝ[X]) ≠ 0 := by
      intro h
      have := congrArg (eval 0) h
      simp at this
    have h3 : derivative (leg n) - X * derivative (leg (n + 1)) = -(C ((n : ℝ) + 1) * leg (n + 1)) := by
      refine mul_left_cancel₀ hX ?_
      linear_combination h2 - X * h1
    rw [h1, derivative_C_mul, derivative_sub, derivative_mul, derivative_X]
    have c : (C (((n + 1 : ℕ) : ℝ) * (((n + 1 : ℕ) : ℝ) + 1)) : ℝ[X]) = C ((n : ℝ) + 1) * (C ((n : ℝ) + 1) + 1) := by
      rw [← C_1, ← C_add, ← C_mul]
      push_cast
      rfl
    rw [c]
    linear_combination C ((n : ℝ) + 1) * h3

/-- Different Legendre polynomials are orthogonal. -/
theorem leg_orthogonal {m n : ℕ} (h : m ≠ n) : ∫ t in (-1 : ℝ)..1, (leg n * leg m).eval t = 0 := by
  obtain ⟨W, hW⟩ : ∃ W, W = (1 - X ^ 2) * derivative (leg n) * leg m - leg n * ((1 - X ^ 2) * derivative (leg m)) :=
    ⟨_, rfl⟩
  have hd : derivative W = C ((m : ℝ) * (m + 1) - n * (n + 1)) * (leg n * leg m) := by
    rw [hW, derivative_sub, derivative_mul, leg_equation, derivative_mul (f := leg n), leg_equation, C_sub]
    ring
  have h1 := integral_derivative W (-1) 1
  have e1 : W.eval 1 = 0 := by simp [hW]
  have e2 : W.eval (-1) = 0 := by simp [hW]
  rw [hd, e1, e2, sub_zero] at h1
  simp only [eval_C_mul] at h1
  rw [intervalIntegral.integral_const_mul] at h1
  refine (mul_eq_zero.1 h1).resolve_left fun h0 => h ?_
  have : ((m : ℝ) - n) * (m + n + 1) = 0 := by linarith
  rcases mul_eq_zero.1 this with h2 | h2
  · exact_mod_cast sub_eq_zero.1 h2
  · have : (0 : ℝ) < (m : ℝ) + n + 1 := by positivity
    linarith

theorem leg_degree (n : ℕ) : (leg n).degree = n ∧ 0 < (leg n).leadingCoeff := by
  induction n using Nat.twoStepInduction with
  | zero => simp [leg]
  | one => simp [leg]
  | more n h1 h2 =>
    obtain ⟨h1, -⟩ := h1
    obtain ⟨h2, h3⟩ := h2
    have hA : (C (1 / ((n : ℝ) + 2)) * (C (2 * (n : ℝ) + 3) * X * leg (n + 1))).degree = ((n + 2 : ℕ) : WithBot ℕ) := by
      rw [degree_C_mul (by positivity), mul_assoc, degree_C_mul (by positivity), degree_mul, degree_X, h2]
      norm_cast
      omega
    have hB : (C (1 / ((n : ℝ) + 2)) * (C ((n : ℝ) + 1) * leg n)).degree = n := by
      rw [degree_C_mul (by positivity), degree_C_mul (by positivity), h1]
    have hlt : (C (1 / ((n : ℝ) + 2)) * (C ((n : ℝ) + 1) * leg n)).degree <
        (C (1 / ((n : ℝ) + 2)) * (C (2 * (n : ℝ) + 3) * X * leg (n + 1))).degree := by
      rw [hA, hB]
      exact_mod_cast (by omega : n < n + 2)
    have e : leg (n + 2) = C (1 / ((n : ℝ) + 2)) * (C (2 * (n : ℝ) + 3) * X * leg (n + 1)) -
        C (1 / ((n : ℝ) + 2)) * (C ((n : ℝ) + 1) * leg n) := by rw [leg, mul_sub]
    rw [e]
    refine ⟨by rw [degree_sub_eq_left_of_degree_lt hlt, hA], ?_⟩
    rw [leadingCoeff_sub_of_degree_lt hlt]
    simp only [leadingCoeff_mul, leadingCoeff_C, leadingCoeff_X]
    positivity

/-- The integral from `-1` to `1`. -/
noncomputable def polyIntegral : ℝ[X] →ₗ[ℝ] ℝ where
  toFun p := ∫ t in (-1 : ℝ)..1, p.eval t
  map_add' p q := by
    simp only [eval_add]
    exact intervalIntegral.integral_add (polynomial_integrable _ _ _) (polynomial_integrable _ _ _)
  map_smul' c p := by
    simp only [eval_smul, smul_eq_mul, RingHom.id_apply]
    exact intervalIntegral.integral_const_mul _ _

theorem polyIntegral_apply (p : ℝ[X]) : polyIntegral p = ∫ t in (-1 : ℝ)..1, p.eval t := rfl

theorem polyIntegral_C_mul (c : ℝ) (p : ℝ[X]) : polyIntegral (C c * p) = c * polyIntegral p := by
  rw [← smul_eq_C_mul, map_smul, smul_eq_mul]

/-- A linear map that vanishes at polynomials of all degrees below `d`. -/
theorem linear_vanishes (L : ℝ[X] →ₗ[ℝ] ℝ) (q : ℕ → ℝ[X]) (hq : ∀ k, (q k).degree = k) (d : ℕ)
    (h : ∀ k < d, L (q k) = 0) : ∀ p : ℝ[X], p.degree < d → L p = 0 := by
  induction d with
  | zero =>
    intro p hp
    have : p = 0 := by
      rw [← degree_eq_bot]
      exact Nat.WithBot.lt_zero_iff.1 hp
    rw [this, map_zero]
  | succ d ih =>
    intro p hp
    have hdk := hq d
    have hne : (q d).leadingCoeff ≠ 0 := by
      rw [Ne, leadingCoeff_eq_zero]
      rintro h0
      rw [h0, degree_zero] at hdk
      exact absurd hdk.symm (WithBot.coe_ne_bot)
    have hnat : (q d).natDegree = d := natDegree_eq_of_degree_eq_some hdk
    obtain ⟨c, hc⟩ : ∃ c, c = p.coeff d / (q d).leadingCoeff := ⟨_, rfl⟩
    have hlow : (p - C c * q d).degree < d := by
      rw [degree_lt_iff_coeff_zero]
      intro m hm
      rw [coeff_sub, coeff_C_mul]
      rcases hm.eq_or_lt with rfl | hm
      · have : (q d).coeff d = (q d).leadingCoeff := by rw [leadingCoeff, hnat]
        rw [this, hc, div_mul_cancel₀ _ hne, sub_self]
      · rw [coeff_eq_zero_of_degree_lt (hp.trans_le (by exact_mod_cast hm)),
          coeff_eq_zero_of_degree_lt (hdk.trans_lt (by exact_mod_cast hm)), mul_zero, sub_zero]
    have h1 := ih (fun k hk => h k (by omega)) _ hlow
    rw [map_sub, ← smul_eq_C_mul, map_smul, h d (by omega), smul_zero, sub_zero] at h1
    exact h1

/-- Legendre polynomials are orthogonal to all polynomials of lower degree. -/
theorem leg_orthogonal_lower {n : ℕ} {q : ℝ[X]} (hq : q.degree < n) : polyIntegral (leg n * q) = 0 :=
  linear_vanishes (polyIntegral.comp (LinearMap.mulLeft ℝ (leg n))) leg (fun k => (leg_degree k).1) n
    (fun _ hk => leg_orthogonal hk.ne) q hq

/-- The kernel of Christoffel and Darboux. -/
noncomputable def kernelPoly (n : ℕ) (y : ℝ) : ℝ[X] := ∑ k ∈ range n, C ((2 * (k : ℝ) + 1) * (leg k).eval y) * leg k

theorem kernelPoly_mul (n : ℕ) (y : ℝ) : (X - C y) * kernelPoly (n + 1) y =
    C ((n : ℝ) + 1) * (leg (n + 1) * C ((leg n).eval y) - leg n * C ((leg (n + 1)).eval y)) := by
  induction n with
  | zero => simp [kernelPoly, leg]
  | succ n ih =>
    have hs : kernelPoly (n + 1 + 1) y =
        kernelPoly (n + 1) y + C ((2 * ((n + 1 : ℕ) : ℝ) + 1) * (leg (n + 1)).eval y) * leg (n + 1) := sum_range_succ _ _
    rw [hs, mul_add, ih]
    have hr := leg_recurrence n
    have he := congrArg (C : ℝ → ℝ[X]) (leg_eval_recurrence n y)
    have c1 : (C (2 * (n : ℝ) + 3) : ℝ[X]) = 2 * C (n : ℝ) + 3 := by
      rw [C_add, C_mul]
      rfl
    have c2 : (C ((n : ℝ) + 2) : ℝ[X]) = C (n : ℝ) + 2 := by
      rw [C_add]
      rfl
    have c3 : (C ((n : ℝ) + 1) : ℝ[X]) = C (n : ℝ) + 1 := by
      rw [C_add]
      rfl
    have c4 : (C (((n + 1 : ℕ) : ℝ) + 1) : ℝ[X]) = C (n : ℝ) + 2 := by
      rw [← c2]
      congr 1
      push_cast
      ring
    have c5 : (C (2 * ((n + 1 : ℕ) : ℝ) + 1) : ℝ[X]) = 2 * C (n : ℝ) + 3 := by
      rw [← c1]
      congr 1
      push_cast
      ring
    simp only [C_mul, C_sub] at he
    rw [← C_mul, ← C_mul] at he
    rw [C_mul (a := 2 * ((n + 1 : ℕ) : ℝ) + 1), c4, c5, c3]
    simp only [C_mul] at he
    rw [c1, c2, c3] at hr
    have c1' : (C (2 * (n : ℝ) + 3) : ℝ[X]) = 2 * C (n : ℝ) + 3 := c1
    rw [c2, c1', c3] at he
    linear_combination (-C ((leg (n + 1)).eval y)) * hr + leg (n + 1) * he

theorem cmul_degree_le (a : ℝ) (p : ℝ[X]) : (C a * p).degree ≤ p.degree := by
  rw [← smul_eq_C_mul]
  exact degree_smul_le a p

theorem kernelPoly_degree (n : ℕ) (y : ℝ) : (kernelPoly n y).degree < n := by
  rw [← mem_degreeLT]
  refine Submodule.sum_mem _ fun k hk => ?_
  rw [mem_degreeLT]
  refine (cmul_degree_le _ _).trans_lt ?_
  rw [(leg_degree k).1]
  exact_mod_cast mem_range.1 hk

theorem kernelPoly_integral (n : ℕ) (y : ℝ) : polyIntegral (kernelPoly (n + 1) y) = 2 := by
  unfold kernelPoly
  rw [map_sum, sum_eq_single 0]
  · rw [polyIntegral_C_mul, polyIntegral_apply]
    simp [leg]
    norm_num
  · intro k _ hk
    have h := leg_orthogonal (m := 0) (n := k) (Ne.symm hk)
    rw [show leg 0 = 1 from rfl, mul_one] at h
    rw [polyIntegral_C_mul, polyIntegral_apply, h, mul_zero]
  · intro h
    exact absurd (mem_range.2 (Nat.succ_pos n)) h

theorem kernelPoly_pos (n : ℕ) (y : ℝ) : 0 < (kernelPoly (n + 1) y).eval y := by
  unfold kernelPoly
  rw [eval_finsetSum, sum_range_succ']
  have h0 : 0 ≤ ∑ k ∈ range n, (C ((2 * ((k + 1 : ℕ) : ℝ) + 1) * (leg (k + 1)).eval y) * leg (k + 1)).eval y := by
    refine sum_nonneg fun k _ => ?_
    rw [eval_C_mul, mul_assoc]
    exact mul_nonneg (by positivity) (mul_self_nonneg _)
  have h1 : (C ((2 * ((0 : ℕ) : ℝ) + 1) * (leg 0).eval y) * leg 0).eval y = 1 := by simp [leg]
  rw [h1]
  linarith

/-- The value of the kernel at a root. -/
theorem kernelPoly_root {n : ℕ} {y : ℝ} (hy : (leg (n + 1)).eval y = 0) :
    (kernelPoly (n + 1) y).eval y = (1 - y ^ 2) * (derivative (leg (n + 1))).eval y ^ 2 ∧
    (kernelPoly (n + 1) y).eval y = ((n : ℝ) + 1) * (leg n).eval y * (derivative (leg (n + 1))).eval y := by
  have h := kernelPoly_mul n y
  rw [hy, C_0, mul_zero, sub_zero] at h
  have hd := congrArg (fun p => (derivative p).eval y) h
  simp only [derivative_mul, derivative_sub, derivative_X, derivative_C, eval_add, eval_mul, eval_sub, eval_X, eval_C,
    sub_zero, sub_self, zero_mul, add_zero, mul_zero, zero_add, one_mul] at hd
  have h1 := congrArg (eval y) (leg_derivatives n).1
  simp only [eval_mul, eval_sub, eval_one, eval_pow, eval_X, eval_C, hy, mul_zero, sub_zero] at h1
  constructor
  · linear_combination hd - (derivative (leg (n + 1))).eval y * h1
  · linear_combination hd

/-- Gauss: the rule at the roots of a Legendre polynomial integrates polynomials up to degree `2 n - 1`. -/
theorem leg_gauss {n : ℕ} {x : Fin (n + 1) → ℝ} (hinj : Function.Injective x)
    (hroot : ∀ j, (leg (n + 1)).eval (x j) = 0) :
    Integrates x (fun j => 2 / ((1 - x j ^ 2) * (derivative (leg (n + 1))).eval (x j) ^ 2)) (-1) 1 (2 * (n + 1) - 1) := by
  have hdeg := (leg_degree (n + 1)).1
  have hne : leg (n + 1) ≠ 0 := by
    intro h
    rw [h, degree_zero] at hdeg
    exact absurd hdeg.symm WithBot.coe_ne_bot
  have hzero : ∀ i j, i ≠ j → (kernelPoly (n + 1) (x j)).eval (x i) = 0 := by
    intro i j hij
    have h := congrArg (eval (x i)) (kernelPoly_mul n (x j))
    rw [hroot j, C_0, mul_zero, sub_zero] at h
    simp only [eval_mul, eval_sub, eval_X, eval_C, hroot i, zero_mul, mul_zero] at h
    exact (mul_eq_zero.1 h).resolve_left (sub_ne_zero.2 fun e => hij (hinj e))
  have low : ∀ r : ℝ[X], r.degree < (n + 1 : ℕ) →
      ∑ j, 2 / ((1 - x j ^ 2) * (derivative (leg (n + 1))).eval (x j) ^ 2) * r.eval (x j) = polyIntegral r := by
    intro r hr
    have e : r = ∑ j, C (r.eval (x j) / (kernelPoly (n + 1) (x j)).eval (x j)) * kernelPoly (n + 1) (x j) := by
      refine eq_of_degrees_lt_of_eval_index_eq (v := x) (univ : Finset (Fin (n + 1))) hinj.injOn ?_ ?_ ?_
      · rwa [card_univ, Fintype.card_fin]
      · rw [card_univ, Fintype.card_fin, ← mem_degreeLT]
        refine Submodule.sum_mem _ fun k hk => ?_
        rw [mem_degreeLT]
        exact (cmul_degree_le _ _).trans_lt (kernelPoly_degree _ _)
      · intro i _
        rw [eval_finsetSum, sum_eq_single i]
        · rw [eval_C_mul, div_mul_cancel₀ _ (kernelPoly_pos n (x i)).ne']
        · intro j _ hj
          rw [eval_C_mul, hzero i j hj.symm, mul_zero]
        · intro h
          exact absurd (mem_univ i) h
    conv_rhs => rw [e]
    rw [map_sum]
    refine sum_congr rfl fun j _ => ?_
    rw [polyIntegral_C_mul, kernelPoly_integral, (kernelPoly_root (hroot j)).1]
    ring
  intro p hp
  have hmod : (p % leg (n + 1)).degree < (n + 1 : ℕ) := by
    rw [← hdeg]
    exact EuclideanDomain.mod_lt p hne
  have hdiv : (p / leg (n + 1)).degree < (n + 1 : ℕ) := by
    by_cases hle : (leg (n + 1)).degree ≤ p.degree
    · have h := degree_add_div hne hle
      have hpn : p ≠ 0 := by
        rintro rfl
        rw [degree_zero, hdeg] at hle
        exact absurd (le_bot_iff.1 hle) WithBot.coe_ne_bot
      have hqn : p / leg (n + 1) ≠ 0 := by
        intro h0
        rw [h0, degree_zero, WithBot.add_bot] at h
        exact hpn (degree_eq_bot.1 h.symm)
      rw [hdeg, degree_eq_natDegree hpn, degree_eq_natDegree hqn] at h
      rw [degree_eq_natDegree hqn]
      have h2 : (n + 1) + (p / leg (n + 1)).natDegree = p.natDegree := by exact_mod_cast h
      exact_mod_cast (by omega : (p / leg (n + 1)).natDegree < n + 1)
    · rw [(Polynomial.div_eq_zero_iff hne).2 (not_le.1 hle), degree_zero]
      exact WithBot.bot_lt_coe _
  have hp' : p = leg (n + 1) * (p / leg (n + 1)) + p % leg (n + 1) := (EuclideanDomain.div_add_mod p _).symm
  have h1 := low _ hmod
  have h2 : polyIntegral p = polyIntegral (p % leg (n + 1)) := by
    conv_lhs => rw [hp']
    rw [map_add, leg_orthogonal_lower hdiv, zero_add]
  change _ = polyIntegral p
  rw [h2, ← h1]
  refine sum_congr rfl fun j _ => ?_
  conv_lhs => rw [hp']
  rw [eval_add, eval_mul, hroot j, zero_mul, zero_add]

end Verif
