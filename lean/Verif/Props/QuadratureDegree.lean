import Verif.Lemmas.Integration
import Verif.Props.Quadrature
import Mathlib.Analysis.SpecialFunctions.Trigonometric.Chebyshev.Basic

/-!
# Polynomials that the quadrature rules integrate exactly (C154)

The rules of `fit_function` (`/repo/pydtmc/fitting.py:180-263`) are known for the polynomials that they integrate
exactly. Here this is proved for all rules but Gauss-Legendre.
-/

set_option linter.unusedSectionVars false

namespace Verif

open Finset Polynomial

/-! ### Trapezoids and Simpson's rule -/

/-- The trapezoidal rule is a sum over the parts of the interval. -/
theorem trapezoid_parts (f : ℕ → ℝ) {m : ℕ} (hm : 1 ≤ m) :
    ∑ j ∈ range (m + 1), (if j = 0 ∨ j = m then (1 / 2 : ℝ) else 1) * f j =
      ∑ j ∈ range m, (f j + f (j + 1)) / 2 := by
  have h : ∀ j ∈ range (m + 1), (if j = 0 ∨ j = m then (1 / 2 : ℝ) else 1) * f j =
      f j - (if j = 0 then f 0 / 2 else 0) - (if j = m then f m / 2 else 0) := by
    intro j _
    by_cases h0 : j = 0
    · subst h0
      rw [if_pos (Or.inl rfl), if_pos rfl, if_neg (by omega)]
      ring
    · by_cases h1 : j = m
      · subst h1
        rw [if_pos (Or.inr rfl), if_neg h0, if_pos rfl]
        ring
      · rw [if_neg (by tauto), if_neg h0, if_neg h1]
        ring
  rw [sum_congr rfl h, sum_sub_distrib, sum_sub_distrib, sum_ite_eq' (range (m + 1)) 0, sum_ite_eq' (range (m + 1)) m,
    if_pos (by simp), if_pos (by simp), ← sum_div, sum_add_distrib]
  have e1 := sum_range_succ f m
  have e2 := sum_range_succ' f m
  linarith

/-- Simpson's rule is a sum over pairs of parts of the interval. -/
theorem simpson_parts (f : ℕ → ℝ) {m : ℕ} (hm : 1 ≤ m) :
    ∑ j ∈ range (2 * m + 1), (if j = 0 ∨ j = 2 * m then (1 : ℝ) else if j % 2 = 0 then 2 else 4) * f j =
      ∑ k ∈ range m, (f (2 * k) + 4 * f (2 * k + 1) + f (2 * k + 2)) := by
  have h : ∀ j ∈ range (2 * m + 1), (if j = 0 ∨ j = 2 * m then (1 : ℝ) else if j % 2 = 0 then 2 else 4) * f j =
      (if j % 2 = 0 then 2 else 4) * f j - (if j = 0 then f 0 else 0) - (if j = 2 * m then f (2 * m) else 0) := by
    intro j _
    by_cases h0 : j = 0
    · subst h0
      rw [if_pos (Or.inl rfl), if_pos rfl, if_pos rfl, if_neg (by omega)]
      ring
    · by_cases h1 : j = 2 * m
      · subst h1
        rw [if_pos (Or.inr rfl), if_neg h0, if_pos rfl, if_pos (by omega)]
        ring
      · rw [if_neg (by tauto), if_neg h0, if_neg h1]
        ring
  rw [sum_congr rfl h, sum_sub_distrib, sum_sub_distrib, sum_ite_eq' (range (2 * m + 1)) 0,
    sum_ite_eq' (range (2 * m + 1)) (2 * m), if_pos (by simp), if_pos (by simp)]
  clear h hm
  induction m with
  | zero => simp; ring
  | succ m ih =>
    rw [show 2 * (m + 1) + 1 = 2 * m + 1 + 1 + 1 by ring, sum_range_succ, sum_range_succ, sum_range_succ _ m, ← ih,
      if_neg (by omega), if_pos (by omega), show 2 * (m + 1) = 2 * m + 2 by ring]
    ring

/-- A sum over the parts of an interval that telescopes. -/
theorem sum_parts (F : ℕ → ℝ) (g : ℕ → ℝ) (m : ℕ) (h : ∀ k, g k = F (k + 1) - F k) :
    ∑ k ∈ range m, g k = F m - F 0 := by
  rw [sum_congr rfl fun k _ => h k, sum_range_sub]

theorem linspace_last (a b : ℝ) {m : ℕ} (hm : 1 ≤ m) : linspace a b (m + 1) m = b := by
  unfold linspace
  have : (m : ℝ) ≠ 0 := by exact_mod_cast (by omega : m ≠ 0)
  push_cast
  rw [add_sub_cancel_right, mul_div_cancel₀ _ this]
  ring

/-- C154, trapezoids: polynomials of degree one are integrated exactly. -/
theorem C154_trapezoid (a b : ℝ) {n : ℕ} (hn : 2 ≤ n) :
    ∃ x w, quadrature .trapezoid a b n = some (x, w) ∧ Integrates x w a b 1 := by
  obtain ⟨m, rfl⟩ : ∃ m, n = m + 1 := ⟨n - 1, by omega⟩
  refine ⟨_, _, rfl, integrates_of_powers fun k hk => ?_⟩
  simp only [linspace_step]
  obtain ⟨r, hr⟩ : ∃ r, r = (b - a) / (((m + 1 : ℕ) : ℝ) - 1) := ⟨_, rfl⟩
  have hx : ∀ j : ℕ, linspace a b (m + 1) (j + 1) = linspace a b (m + 1) j + r := by
    intro j
    unfold linspace
    rw [← hr]
    push_cast
    ring
  have h0 : linspace a b (m + 1) 0 = a := by simp [linspace]
  have hm := linspace_last a b (m := m) (by omega)
  rw [← hr, Fin.sum_univ_eq_sum_range (fun j => r * (if j = 0 ∨ j = m + 1 - 1 then (1 / 2 : ℝ) else 1) *
    linspace a b (m + 1) j ^ k)]
  simp only [mul_assoc, Nat.add_sub_cancel]
  rw [← mul_sum, trapezoid_parts _ (by omega), mul_sum,
    sum_parts (fun j => linspace a b (m + 1) j ^ (k + 1) / (k + 1)), hm, h0, sub_div]
  intro j
  rw [hx j]
  interval_cases k
  · push_cast
    ring
  · push_cast
    ring

/-- C154, Simpson's rule: polynomials of degree three are integrated exactly. -/
theorem C154_simpson (a b : ℝ) {n : ℕ} (hn : 2 ≤ n) (hodd : n % 2 = 1) :
    ∃ x w, quadrature .simpson a b n = some (x, w) ∧ Integrates x w a b 3 := by
  obtain ⟨m, rfl⟩ : ∃ m, n = 2 * m + 1 := ⟨n / 2, by omega⟩
  refine ⟨_, _, rfl, integrates_of_powers fun k hk => ?_⟩
  simp only [linspace_step]
  obtain ⟨r, hr⟩ : ∃ r, r = (b - a) / (((2 * m + 1 : ℕ) : ℝ) - 1) := ⟨_, rfl⟩
  have hx : ∀ j : ℕ, linspace a b (2 * m + 1) (j + 1) = linspace a b (2 * m + 1) j + r := by
    intro j
    unfold linspace
    rw [← hr]
    push_cast
    ring
  have h0 : linspace a b (2 * m + 1) 0 = a := by simp [linspace]
  have hm := linspace_last a b (m := 2 * m) (by omega)
  rw [← hr, Fin.sum_univ_eq_sum_range (fun j => r / 3 * (if j = 0 ∨ j = 2 * m + 1 - 1 then (1 : ℝ) else
    if j % 2 = 0 then 2 else 4) * linspace a b (2 * m + 1) j ^ k)]
  simp only [mul_assoc, Nat.add_sub_cancel]
  rw [← mul_sum, simpson_parts _ (by omega), mul_sum,
    sum_parts (fun j => linspace a b (2 * m + 1) (2 * j) ^ (k + 1) / (k + 1)), hm, mul_zero, h0, sub_div]
  intro j
  rw [show 2 * (j + 1) = 2 * j + 1 + 1 by ring, hx (2 * j + 1), hx (2 * j)]
  interval_cases k
  · push_cast
    ring
  · push_cast
    ring
  · push_cast
    ring
  · push_cast
    ring

/-! ### The other simple rules -/

/-- C154, Niederreiter: constants are integrated exactly. -/
theorem C154_niederreiter (a b : ℝ) {n : ℕ} (hn : 2 ≤ n) :
    ∃ x w, quadrature .niederreiter a b n = some (x, w) ∧ Integrates x w a b 0 := by
  have : (n : ℝ) ≠ 0 := by exact_mod_cast (by omega : n ≠ 0)
  refine ⟨_, _, rfl, integrates_of_powers fun k hk => ?_⟩
  obtain rfl : k = 0 := by omega
  simp
  field_simp

/-- C154, Newton-Cotes, partial: constants are integrated exactly, and polynomials of degree one exactly if the interval
starts at zero. -/
theorem C154_newton_cotes_partial (a b : ℝ) {n : ℕ} (hn : 2 ≤ n) :
    ∃ x w, quadrature .newtonCotes a b n = some (x, w) ∧ Integrates x w a b 0 ∧
      (a < b → (Integrates x w a b 1 ↔ a = 0)) := by
  have hn0 : (n : ℝ) ≠ 0 := by exact_mod_cast (by omega : n ≠ 0)
  have h0 : ∑ j : Fin n, (b - a) / n * ((((j : ℕ) : ℝ) + 1 / 2) * ((b - a) / n)) ^ 0 =
      (b ^ (0 + 1) - a ^ (0 + 1)) / ((0 : ℕ) + 1) := by
    simp
    field_simp
  have h1 : ∑ j : Fin n, (b - a) / n * ((((j : ℕ) : ℝ) + 1 / 2) * ((b - a) / n)) ^ 1 = (b - a) ^ 2 / 2 := by
    rw [Fin.sum_univ_eq_sum_range (fun j => (b - a) / n * (((j : ℝ) + 1 / 2) * ((b - a) / n)) ^ 1)]
    have e : ∀ m : ℕ, ∑ j ∈ range m, ((j : ℝ) + 1 / 2) = m ^ 2 / 2 := by
      intro m
      induction m with
      | zero => simp
      | succ m ih =>
        rw [sum_range_succ, ih]
        push_cast
        ring
    simp only [pow_one]
    rw [← mul_sum, ← sum_mul, e]
    field_simp
  refine ⟨_, _, rfl, integrates_of_powers fun k hk => ?_, fun hab => ⟨fun h => ?_, fun h => ?_⟩⟩
  · obtain rfl : k = 0 := by omega
    exact h0
  · have h2 := h X natDegree_X_le
    simp only [eval_X] at h2
    rw [integral_id] at h2
    simp only [pow_one] at h1
    rw [h1] at h2
    have : a * (b - a) = 0 := by linarith [sq_nonneg a]
    rcases mul_eq_zero.1 this with h3 | h3
    · exact h3
    · linarith
  · subst h
    refine integrates_of_powers fun k hk => ?_
    interval_cases k
    · exact h0
    · refine h1.trans ?_
      push_cast
      ring

/-! ### Gauss-Chebyshev -/

/-- Cosines at the nodes sum to zero. -/
theorem cos_nodes_zero {n l : ℕ} (hl : 0 < l) (hln : l < 2 * n) :
    ∑ j ∈ range n, Real.cos (l * (Real.pi / n * (j + 1 / 2))) = 0 := by
  have hn : (0:ℝ) < n := by exact_mod_cast (by omega : 0 < n)
  have hl' : (0:ℝ) < l := by exact_mod_cast hl
  obtain ⟨x, hx⟩ : ∃ x : ℝ, x = l * Real.pi / (2 * n) := ⟨_, rfl⟩
  have hsin : 0 < Real.sin x := by
    apply Real.sin_pos_of_pos_of_lt_pi
    · rw [hx]
      exact div_pos (mul_pos hl' Real.pi_pos) (by positivity)
    · rw [hx, div_lt_iff₀ (by positivity), mul_comm Real.pi]
      exact mul_lt_mul_of_pos_right (by exact_mod_cast hln) Real.pi_pos
  have h := cos_odd_sum n x
  have h2 : Real.sin (2 * n * x) = 0 := by
    have : 2 * (n : ℝ) * x = (l : ℝ) * Real.pi := by
      rw [hx]
      field_simp
    rw [this]
    exact Real.sin_nat_mul_pi _
  rw [h2] at h
  have h3 : ∑ j ∈ range n, Real.cos ((2 * j + 1) * x) = 0 := by
    rcases mul_eq_zero.1 h with h | h
    · linarith
    · exact h
  rw [← h3]
  refine sum_congr rfl fun j _ => ?_
  congr 1
  rw [hx]
  field_simp

/-- Cosines of different frequencies are orthogonal at the nodes. -/
theorem cos_nodes_product {n k m : ℕ} (hkm : k + m < 2 * n) :
    ∑ j ∈ range n, Real.cos (k * (Real.pi / n * (j + 1 / 2))) * Real.cos (m * (Real.pi / n * (j + 1 / 2))) =
      if k = m then if k = 0 then (n : ℝ) else n / 2 else 0 := by
  have key : ∀ {k m : ℕ}, m ≤ k → k + m < 2 * n →
      ∑ j ∈ range n, Real.cos (k * (Real.pi / n * (j + 1 / 2))) * Real.cos (m * (Real.pi / n * (j + 1 / 2))) =
        (∑ j ∈ range n, Real.cos ((k + m : ℕ) * (Real.pi / n * (j + 1 / 2))) +
          ∑ j ∈ range n, Real.cos ((k - m : ℕ) * (Real.pi / n * (j + 1 / 2)))) / 2 := by
    intro k m hmk _
    rw [← sum_add_distrib, sum_div]
    refine sum_congr rfl fun j _ => ?_
    have e1 : ((k + m : ℕ) : ℝ) * (Real.pi / n * (j + 1 / 2)) =
        k * (Real.pi / n * (j + 1 / 2)) + m * (Real.pi / n * (j + 1 / 2)) := by
      push_cast
      ring
    have e2 : ((k - m : ℕ) : ℝ) * (Real.pi / n * (j + 1 / 2)) =
        k * (Real.pi / n * (j + 1 / 2)) - m * (Real.pi / n * (j + 1 / 2)) := by
      rw [Nat.cast_sub hmk]
      ring
    rw [e1, e2, Real.cos_add, Real.cos_sub]
    ring
  have hne : ∀ {k m : ℕ}, m < k → k + m < 2 * n →
      ∑ j ∈ range n, Real.cos (k * (Real.pi / n * (j + 1 / 2))) * Real.cos (m * (Real.pi / n * (j + 1 / 2))) = 0 := by
    intro k m hmk h
    rw [key hmk.le h, cos_nodes_zero (by omega) h, cos_nodes_zero (by omega) (by omega)]
    norm_num
  rcases lt_trichotomy k m with h | h | h
  · rw [if_neg h.ne, ← hne h (by omega)]
    exact sum_congr rfl fun j _ => mul_comm _ _
  · subst h
    rw [if_pos rfl]
    by_cases h0 : k = 0
    · rw [if_pos h0, h0]
      simp
    · rw [if_neg h0, key le_rfl hkm, cos_nodes_zero (by omega) hkm]
      simp
  · rw [if_neg h.ne', hne h hkm]

/-- The integrals of the Chebyshev polynomials. -/
theorem integral_chebyshev (k : ℕ) : ∫ t in (-1 : ℝ)..1, (Chebyshev.T ℝ ((k + 2 : ℕ) : ℤ)).eval t =
    (1 + (-1) ^ k) * (1 / (2 * (k + 3)) - 1 / (2 * (k + 1))) := by
  have hd : derivative (C (1 / (2 * ((k : ℝ) + 3))) * Chebyshev.T ℝ ((k + 3 : ℕ) : ℤ) -
      C (1 / (2 * ((k : ℝ) + 1))) * Chebyshev.T ℝ ((k + 1 : ℕ) : ℤ)) = Chebyshev.T ℝ ((k + 2 : ℕ) : ℤ) := by
    have h3 : ((k : ℝ) + 3) ≠ 0 := by positivity
    have h1 : ((k : ℝ) + 1) ≠ 0 := by positivity
    rw [derivative_sub, derivative_C_mul, derivative_C_mul, Chebyshev.T_derivative_eq_U, Chebyshev.T_derivative_eq_U]
    have e := Chebyshev.two_mul_T_eq_U_sub_U ℝ (k : ℤ)
    have e1 : (((k + 3 : ℕ) : ℤ) - 1) = (k : ℤ) + 2 := by push_cast; ring
    have e2 : (((k + 1 : ℕ) : ℤ) - 1) = (k : ℤ) := by push_cast; ring
    have e3 : ((k + 2 : ℕ) : ℤ) = (k : ℤ) + 2 := by push_cast; ring
    have c1 : (((k + 3 : ℕ) : ℤ) : ℝ[X]) = C ((k : ℝ) + 3) := by
      simpa using (map_ofNat (C : ℝ →+* ℝ[X]) 3).symm
    have c2 : (((k + 1 : ℕ) : ℤ) : ℝ[X]) = C ((k : ℝ) + 1) := by simp
    rw [e1, e2, e3, c1, c2, ← mul_assoc, ← mul_assoc, ← C_mul, ← C_mul]
    have f1 : 1 / (2 * ((k : ℝ) + 3)) * (k + 3) = 1 / 2 := by field_simp
    have f2 : 1 / (2 * ((k : ℝ) + 1)) * (k + 1) = 1 / 2 := by field_simp
    rw [f1, f2, ← mul_sub, ← e, ← mul_assoc]
    have : (C (1 / 2 : ℝ) * 2 : ℝ[X]) = 1 := by
      rw [show (2 : ℝ[X]) = C 2 from (map_ofNat (C : ℝ →+* ℝ[X]) 2).symm, ← C_mul]
      norm_num
    rw [this, one_mul]
  have hm : ∀ m : ℕ, (Chebyshev.T ℝ (m : ℤ)).eval (-1) = (-1) ^ m := by
    intro m
    have := Chebyshev.T_real_cos Real.pi (m : ℤ)
    rw [Real.cos_pi] at this
    rw [this, Int.cast_natCast, Real.cos_nat_mul_pi]
  rw [← hd, integral_derivative]
  simp only [eval_sub, eval_mul, eval_C, Chebyshev.T_eval_one, hm]
  ring

/-- C154, Gauss-Chebyshev: with `n` nodes polynomials of degree below `n` are integrated exactly. -/
theorem C154_chebyshev (a b : ℝ) {n : ℕ} (hn : 2 ≤ n) :
    ∃ x w, quadrature .chebyshev a b n = some (x, w) ∧ Integrates x w a b (n - 1) := by
  have hn0 : (n : ℝ) ≠ 0 := by exact_mod_cast (by omega : n ≠ 0)
  refine ⟨_, _, rfl, ?_⟩
  have h : Integrates (fun j : Fin n => -Real.cos (Real.pi / n * ((j : ℕ) + 1 / 2)))
      (fun j : Fin n => chebyshevWeight (-1) 1 n j) (-1) 1 (n - 1) := by
    refine integrates_of_sequence (fun k => Chebyshev.T ℝ (k : ℤ)) (fun k _ => ?_) fun k hk => ?_
    · rw [Chebyshev.degree_T]
      rfl
    · have hT : ∀ θ : ℝ, (Chebyshev.T ℝ (k : ℤ)).eval (-Real.cos θ) = (-1) ^ k * Real.cos (k * θ) := by
        intro θ
        have e := Chebyshev.T_real_cos (Real.pi - θ) (k : ℤ)
        rw [Real.cos_pi_sub] at e
        rw [e, Int.cast_natCast, mul_sub, Real.cos_nat_mul_pi_sub]
      simp only [hT]
      rw [Fin.sum_univ_eq_sum_range (fun j => chebyshevWeight (-1) 1 n j *
        ((-1) ^ k * Real.cos (k * (Real.pi / n * ((j : ℕ) + 1 / 2)))))]
      have hs : ∑ j ∈ range n, chebyshevWeight (-1) 1 n j *
          ((-1) ^ k * Real.cos (k * (Real.pi / n * ((j : ℕ) + 1 / 2)))) =
          (-1) ^ k * (2 / n) * ∑ m ∈ range ((n + 1) / 2), chebyshevCoeff m *
            (if 2 * m = k then if 2 * m = 0 then (n : ℝ) else n / 2 else 0) := by
        have e : ∀ m ∈ range ((n + 1) / 2), chebyshevCoeff m *
            (if 2 * m = k then if 2 * m = 0 then (n : ℝ) else n / 2 else 0) =
            chebyshevCoeff m * ∑ j ∈ range n, Real.cos ((2 * m : ℕ) * (Real.pi / n * (j + 1 / 2))) *
              Real.cos (k * (Real.pi / n * (j + 1 / 2))) := by
          intro m hm
          rw [mem_range] at hm
          rw [cos_nodes_product (by omega)]
        rw [sum_congr rfl e]
        simp only [mul_sum, sum_mul, chebyshevWeight]
        rw [sum_comm]
        refine sum_congr rfl fun m _ => sum_congr rfl fun j _ => ?_
        have : Real.pi / n * ((j + 1 / 2) * (2 * (m : ℝ))) = ((2 * m : ℕ) : ℝ) * (Real.pi / n * (j + 1 / 2)) := by
          push_cast
          ring
        rw [this]
        ring
      rw [hs]
      rcases Nat.even_or_odd k with hk2 | hk2
      · obtain ⟨i, rfl⟩ := hk2
        rw [sum_eq_single i (fun m _ hm => by rw [if_neg (by omega), mul_zero])
          (fun hi => absurd (mem_range.2 (by omega)) hi), if_pos (by omega)]
        rcases Nat.eq_zero_or_pos i with rfl | hi
        · simp [chebyshevCoeff]
          field_simp
          norm_num
        · obtain ⟨i, rfl⟩ : ∃ l, i = l + 1 := ⟨i - 1, by omega⟩
          have e := integral_chebyshev (2 * i)
          have e2 : 2 * i + 2 = i + 1 + (i + 1) := by ring
          rw [e2] at e
          rw [e, if_neg (by omega), chebyshevCoeff, if_neg (by omega), ← two_mul, pow_mul, pow_mul]
          have h1 : (2 * ((i : ℝ) + 1) - 1) ≠ 0 := by
            have : (0 : ℝ) ≤ i := Nat.cast_nonneg i
            linarith
          have h2 : (2 * ((i : ℝ) + 1) + 1) ≠ 0 := by positivity
          have h3 : (2 * (i : ℝ) + 3) ≠ 0 := by positivity
          have h4 : (2 * (i : ℝ) + 1) ≠ 0 := by positivity
          have h5 : (2 * ((i : ℝ) + 1) - 1) = 2 * i + 1 := by ring
          have h6 : (2 * ((i : ℝ) + 1) + 1) = 2 * i + 3 := by ring
          push_cast
          rw [h5, h6]
          norm_num
          field_simp
          ring
      · rw [sum_eq_zero fun m _ => by
          rw [if_neg (by rintro rfl; exact absurd hk2 (by simp)), mul_zero], mul_zero]
        obtain ⟨i, rfl⟩ := hk2
        rcases Nat.eq_zero_or_pos i with rfl | hi
        · simp
        · obtain ⟨i, rfl⟩ : ∃ l, i = l + 1 := ⟨i - 1, by omega⟩
          have e := integral_chebyshev (2 * i + 1)
          have e2 : 2 * i + 1 + 2 = 2 * (i + 1) + 1 := by ring
          rw [e2] at e
          rw [e, pow_succ, pow_mul]
          norm_num
  have h' := h.affine ((b + a) / 2) ((b - a) / 2)
  have e1 : (b + a) / 2 - (b - a) / 2 = a := by ring
  have e2 : (b + a) / 2 + (b - a) / 2 = b := by ring
  rw [e1, e2] at h'
  have hx : (fun j : Fin n => (b + a) / 2 + (b - a) / 2 * -Real.cos (Real.pi / n * ((j : ℕ) + 1 / 2))) =
      fun j : Fin n => (b + a) / 2 - (b - a) / 2 * Real.cos (Real.pi / n * ((j : ℕ) + 1 / 2)) := by
    funext j
    ring
  have hw : (fun j : Fin n => (b - a) / 2 * chebyshevWeight (-1) 1 n j) = fun j : Fin n => chebyshevWeight a b n j := by
    funext j
    unfold chebyshevWeight
    rw [mul_sum]
    refine sum_congr rfl fun m _ => ?_
    ring
  rw [hx, hw] at h'
  exact h'

end Verif
