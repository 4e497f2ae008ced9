import Verif.Lemmas.Legendre
import Mathlib.Analysis.Complex.Polynomial.Basic
import Mathlib.Analysis.Calculus.Deriv.Polynomial
import Mathlib.Analysis.Calculus.Deriv.MeanValue

/-!
# Roots of Legendre polynomials

All roots are real, simple and inside the unit interval, and a short Newton step only happens close to a root.
-/

set_option linter.unusedSectionVars false

namespace Verif

open Finset Polynomial ComplexConjugate

theorem leg_ne_zero (n : ℕ) : leg n ≠ 0 := by
  intro h
  have := (leg_degree n).2
  rw [h, leadingCoeff_zero] at this
  exact lt_irrefl _ this

theorem leg_natDegree (n : ℕ) : (leg n).natDegree = n := natDegree_eq_of_degree_eq_some (leg_degree n).1

theorem leg_neg (n : ℕ) (x : ℝ) : (leg n).eval (-x) = (-1) ^ n * (leg n).eval x := by
  induction n using Nat.strong_induction_on with
  | _ n ih =>
    match n, ih with
    | 0, _ => simp [leg]
    | 1, _ => simp [leg]
    | n + 2, ih =>
      have h1 := leg_eval_recurrence n x
      have h2 := leg_eval_recurrence n (-x)
      rw [ih (n + 1) (by omega), ih n (by omega)] at h2
      have hn : (n : ℝ) + 2 ≠ 0 := by positivity
      refine mul_left_cancel₀ hn ?_
      rw [h2]
      linear_combination (-(-1) ^ n) * h1

theorem leg_one (n : ℕ) : (leg n).eval 1 = 1 := by
  induction n using Nat.strong_induction_on with
  | _ n ih =>
    match n, ih with
    | 0, _ => simp [leg]
    | 1, _ => simp [leg]
    | n + 2, ih =>
      have h1 := leg_eval_recurrence n 1
      rw [ih (n + 1) (by omega), ih n (by omega)] at h1
      have hn : (n : ℝ) + 2 ≠ 0 := by positivity
      refine mul_left_cancel₀ hn ?_
      rw [h1]
      ring

theorem leg_complex (n : ℕ) (z w : ℂ) :
    (z - w) * ∑ k ∈ range (n + 1), (2 * (k : ℂ) + 1) * (aeval z (leg k) * aeval w (leg k)) =
      ((n : ℂ) + 1) * (aeval z (leg (n + 1)) * aeval w (leg n) - aeval z (leg n) * aeval w (leg (n + 1))) := by
  have hr : ∀ (j : ℕ) (z : ℂ), ((j : ℂ) + 2) * aeval z (leg (j + 2)) =
      (2 * (j : ℂ) + 3) * z * aeval z (leg (j + 1)) - ((j : ℂ) + 1) * aeval z (leg j) := by
    intro j z
    have h := congrArg (aeval z) (leg_recurrence j)
    simpa using h
  induction n with
  | zero => simp [leg]
  | succ n ih =>
    rw [sum_range_succ, mul_add, ih]
    have h1 := hr n z
    have h2 := hr n w
    push_cast
    linear_combination aeval z (leg (n + 1)) * h2 - aeval w (leg (n + 1)) * h1

theorem leg_root_real {n : ℕ} {z : ℂ} (h : aeval z (leg (n + 1)) = 0) : conj z = z := by
  have e := leg_complex n z (conj z)
  have hc : ∀ k, aeval (conj z) (leg k) = conj (aeval z (leg k)) := fun k => aeval_conj (leg k) z
  rw [hc (n + 1), h, map_zero, zero_mul, mul_zero, sub_zero, mul_zero] at e
  rcases mul_eq_zero.1 e with e | e
  · exact (sub_eq_zero.1 e).symm
  · exfalso
    have hs : ∑ k ∈ range (n + 1), (2 * (k : ℂ) + 1) * (aeval z (leg k) * aeval (conj z) (leg k)) =
        ((∑ k ∈ range (n + 1), (2 * (k : ℝ) + 1) * Complex.normSq (aeval z (leg k)) : ℝ) : ℂ) := by
      rw [Complex.ofReal_sum]
      refine sum_congr rfl fun k _ => ?_
      rw [hc, Complex.mul_conj]
      push_cast
      rfl
    rw [hs, Complex.ofReal_eq_zero, sum_range_succ'] at e
    have h0 : 0 ≤ ∑ k ∈ range n, (2 * ((k + 1 : ℕ) : ℝ) + 1) * Complex.normSq (aeval z (leg (k + 1))) :=
      sum_nonneg fun k _ => mul_nonneg (by positivity) (Complex.normSq_nonneg _)
    have h1 : (2 * ((0 : ℕ) : ℝ) + 1) * Complex.normSq (aeval z (leg 0)) = 1 := by simp [leg]
    rw [h1] at e
    linarith

theorem leg_splits (n : ℕ) : (leg n).Splits := by
  cases n with
  | zero => exact Splits.one
  | succ n =>
    refine Splits.of_splits_map (algebraMap ℝ ℂ) (IsAlgClosed.splits _) fun a ha => ?_
    have h : aeval a (leg (n + 1)) = 0 := by
      have := (mem_roots'.1 ha).2
      rwa [IsRoot.def, eval_map_algebraMap] at this
    exact ⟨a.re, Complex.conj_eq_iff_re.1 (leg_root_real h)⟩

theorem leg_root_simple {n : ℕ} {y : ℝ} (h : (leg n).eval y = 0) : (derivative (leg n)).eval y ≠ 0 ∧ y ^ 2 < 1 := by
  cases n with
  | zero => simp [leg] at h
  | succ n =>
    have h1 := (kernelPoly_root h).1
    have h2 := kernelPoly_pos n y
    rw [h1] at h2
    have hne : (derivative (leg (n + 1))).eval y ≠ 0 := by
      intro e
      rw [e] at h2
      simp at h2
    refine ⟨hne, ?_⟩
    have h3 : 0 < (derivative (leg (n + 1))).eval y ^ 2 := by positivity
    by_contra hy
    nlinarith [not_lt.1 hy]

theorem leg_roots (n : ℕ) : (leg n).roots.toFinset.card = n := by
  have h1 : (leg n).roots.card = n := by rw [← (leg_splits n).natDegree_eq_card_roots, leg_natDegree]
  have h2 : (leg n).roots.Nodup := by
    refine Multiset.nodup_iff_count_le_one.2 fun a => ?_
    rw [count_roots]
    by_contra hlt
    have hroot := (one_lt_rootMultiplicity_iff_isRoot (leg_ne_zero n)).1 (not_le.1 hlt)
    exact (leg_root_simple hroot.1).1 hroot.2
  rw [Multiset.toFinset_card_of_nodup h2, h1]

/-- There are `n` different roots. -/
theorem leg_exists_roots (n : ℕ) : ∃ x : Fin n → ℝ, StrictMono x ∧ (∀ j, (leg n).eval (x j) = 0) ∧
    ∀ y, (leg n).eval y = 0 → ∃ j, x j = y := by
  refine ⟨(leg n).roots.toFinset.orderEmbOfFin (leg_roots n), (OrderEmbedding.strictMono _), fun j => ?_, fun y hy => ?_⟩
  · have := Finset.orderEmbOfFin_mem _ (leg_roots n) j
    exact (mem_roots (leg_ne_zero n)).1 (Multiset.mem_toFinset.1 this)
  · have : y ∈ ((leg n).roots.toFinset : Set ℝ) := by
      rw [mem_coe, Multiset.mem_toFinset, mem_roots (leg_ne_zero n)]
      exact hy
    rw [← Finset.range_orderEmbOfFin _ (leg_roots n)] at this
    exact this

/-- A short Newton step only happens close to a root. -/
theorem leg_newton {n : ℕ} (hn : 0 < n) {y e : ℝ} (he : 0 ≤ e) (hp : (derivative (leg n)).eval y ≠ 0)
    (h : |(leg n).eval y / (derivative (leg n)).eval y| ≤ e) :
    ∃ x, (leg n).eval x = 0 ∧ |y - x| ≤ n * e := by
  by_cases hy : (leg n).eval y = 0
  · exact ⟨y, hy, by rw [sub_self, abs_zero]; positivity⟩
  by_contra hno
  push Not at hno
  have hs := (leg_splits n).eval_derivative_div_eval_of_ne_zero hy
  have hcard : (leg n).roots.card = n := by rw [← (leg_splits n).natDegree_eq_card_roots, leg_natDegree]
  have he' : 0 < e := by
    refine lt_of_lt_of_le ?_ h
    exact abs_pos.2 (div_ne_zero hy hp)
  have hn' : (0 : ℝ) < n := by exact_mod_cast hn
  have hb : ∀ s : Multiset ℝ, (∀ x ∈ s, |1 / (y - x)| < 1 / (n * e)) → s ≠ 0 →
      |(s.map fun z => 1 / (y - z)).sum| < s.card * (1 / (n * e)) := by
    intro s
    induction s using Multiset.induction_on with
    | empty => intro _ h0; exact absurd rfl h0
    | cons a s ih =>
      intro hx _
      rw [Multiset.map_cons, Multiset.sum_cons, Multiset.card_cons]
      have h1 := hx a (Multiset.mem_cons_self a s)
      by_cases h0 : s = 0
      · subst h0
        simpa using h1
      · have h2 := ih (fun x hxs => hx x (Multiset.mem_cons_of_mem hxs)) h0
        have h3 := abs_add_le (1 / (y - a)) (s.map fun z => 1 / (y - z)).sum
        push_cast
        linarith
  have hb1 := hb (leg n).roots (fun x hx => by
    have hx' : (leg n).eval x = 0 := (mem_roots (leg_ne_zero n)).1 hx
    rw [abs_div, abs_one]
    exact one_div_lt_one_div_of_lt (by positivity) (hno x hx')) (by
    intro h0
    rw [h0, Multiset.card_zero] at hcard
    omega)
  rw [← hs, hcard] at hb1
  have h2 : (n : ℝ) * (1 / (n * e)) = 1 / e := by field_simp
  rw [h2, ← inv_div, abs_inv, ← one_div] at hb1
  have h3 := (one_div_lt_one_div (abs_pos.2 (div_ne_zero hy hp)) he').1 hb1
  linarith

theorem poly_mvt (p : ℝ[X]) {a b : ℝ} (h : a < b) :
    ∃ c, a < c ∧ c < b ∧ p.eval b - p.eval a = (derivative p).eval c * (b - a) := by
  obtain ⟨c, hc, e⟩ := exists_deriv_eq_slope (fun t => p.eval t) h p.continuous.continuousOn p.differentiable.differentiableOn
  refine ⟨c, hc.1, hc.2, ?_⟩
  rw [← Polynomial.deriv, e, div_mul_cancel₀ _ (sub_ne_zero.2 h.ne')]

theorem leg_abs_le {n : ℕ} (hn : 0 < n) {x : ℝ} (h0 : 0 ≤ x) (h1 : x ≤ 1) : (leg n).eval x ≤ 1 := by
  rcases h1.eq_or_lt with rfl | h1
  · rw [leg_one]
  have hn' : (0 : ℝ) < n := by exact_mod_cast hn
  have hd := leg_equation n
  rw [derivative_mul] at hd
  obtain ⟨c, hc0, hc1, e⟩ := poly_mvt
    (C ((n : ℝ) * (n + 1)) * leg n ^ 2 + (1 - X ^ 2) * derivative (leg n) ^ 2) h1
  have hD : derivative (C ((n : ℝ) * (n + 1)) * leg n ^ 2 + (1 - X ^ 2) * derivative (leg n) ^ 2) =
      2 * X * derivative (leg n) ^ 2 := by
    simp only [derivative_add, derivative_mul, derivative_pow, derivative_sub, derivative_one, derivative_X,
      derivative_C] at hd ⊢
    simp only [Nat.cast_ofNat, Nat.add_one_sub_one, pow_one] at hd ⊢
    have h2 : (C (2 : ℝ) : ℝ[X]) = 2 := rfl
    rw [h2] at hd ⊢
    linear_combination (2 * derivative (leg n)) * hd
  rw [hD] at e
  simp only [eval_add, eval_mul, eval_C, eval_pow, eval_sub, eval_one, eval_X, eval_ofNat, leg_one] at e
  have h2 : 0 ≤ 2 * c * (derivative (leg n)).eval c ^ 2 * (1 - x) :=
    mul_nonneg (mul_nonneg (by linarith) (sq_nonneg _)) (by linarith)
  have h3 : 0 ≤ (1 - x ^ 2) * (derivative (leg n)).eval x ^ 2 := mul_nonneg (by nlinarith) (sq_nonneg _)
  have h4 : (n : ℝ) * (n + 1) * (leg n).eval x ^ 2 ≤ (n : ℝ) * (n + 1) * 1 := by linarith
  have h5 : (leg n).eval x ^ 2 ≤ 1 := le_of_mul_le_mul_left h4 (by positivity)
  nlinarith

theorem leg_slope_le {n : ℕ} (hn : 0 < n) {x : ℝ} (h0 : 0 ≤ x) (h1 : x < 1) :
    (derivative (leg n)).eval x ≤ n * (n + 1) := by
  obtain ⟨c, hc0, hc1, e⟩ := poly_mvt ((1 - X ^ 2) * derivative (leg n)) h1
  rw [leg_equation] at e
  simp only [eval_mul, eval_C, eval_pow, eval_sub, eval_one, eval_X, eval_neg] at e
  have h2 := leg_abs_le hn (h0.trans hc0.le) hc1.le
  have h3 : (0 : ℝ) ≤ n * (n + 1) := by positivity
  have h4 : (1 - x) * ((1 + x) * (derivative (leg n)).eval x) ≤ (1 - x) * (n * (n + 1)) := by
    have := mul_le_mul_of_nonneg_left h2 (mul_nonneg h3 (by linarith : 0 ≤ 1 - x))
    linarith
  have h5 := le_of_mul_le_mul_left h4 (by linarith)
  rcases le_total 0 ((derivative (leg n)).eval x) with h | h
  · nlinarith
  · linarith

/-- The roots keep a distance from the ends of the interval. -/
theorem leg_root_inside {n : ℕ} {x : ℝ} (h : (leg n).eval x = 0) : |x| ≤ 1 - 1 / (n * (n + 1)) := by
  have hn : 0 < n := by
    rcases Nat.eq_zero_or_pos n with rfl | hn
    · simp [leg] at h
    · exact hn
  have hn' : (0 : ℝ) < n := by exact_mod_cast hn
  have key : ∀ x : ℝ, 0 ≤ x → (leg n).eval x = 0 → x ≤ 1 - 1 / (n * (n + 1)) := by
    intro x h0 h
    have h1 : x < 1 := by nlinarith [(leg_root_simple h).2]
    obtain ⟨c, hc0, hc1, e⟩ := poly_mvt (leg n) h1
    rw [leg_one, h] at e
    have h2 := mul_le_mul_of_nonneg_right (leg_slope_le hn (h0.trans hc0.le) hc1) (by linarith : 0 ≤ 1 - x)
    rw [← e] at h2
    have h3 : 1 / ((n : ℝ) * (n + 1)) ≤ 1 - x := by
      rw [div_le_iff₀ (by positivity)]
      linarith
    linarith
  rcases le_total 0 x with h0 | h0
  · rw [abs_of_nonneg h0]
    exact key x h0 h
  · rw [abs_of_nonpos h0]
    refine key (-x) (by linarith) ?_
    rw [leg_neg, h, mul_zero]

end Verif
