import Verif.Model.RoundedSolve
import Verif.Props.Passage
import Verif.Props.PiDouble

/-!
# Mean recurrence times in double arithmetic (C169)
-/

namespace Verif

open Finset

theorem forall2_singleton {α β : Type} {R : α → β → Prop} {l : List α} {b : β} (h : List.Forall₂ R l [b]) :
    ∃ a, l = [a] ∧ R a b := by
  cases h with
  | cons h1 h2 => cases h2; exact ⟨_, rfl, h1⟩

/-- The reciprocal of a number with a small relative error. -/
theorem reciprocal_error {x' x ρ : ℚ} (hx : 0 < x) (hρ : ρ ≤ 1 / 2) (hρ0 : 0 ≤ ρ) (h : |x' - x| ≤ ρ * x) :
    0 < x' ∧ |1 / x' - 1 / x| ≤ 2 * ρ * (1 / x) := by
  have h1 := abs_le.1 h
  have h2 := mul_le_mul_of_nonneg_right hρ hx.le
  have hx' : 0 < x' := by linarith
  refine ⟨hx', ?_⟩
  have e : 1 / x' - 1 / x = -(x' - x) / (x' * x) := by
    field_simp
    ring
  rw [e, abs_div, abs_neg, abs_of_pos (mul_pos hx' hx), div_le_iff₀ (mul_pos hx' hx)]
  have e2 : 2 * ρ * (1 / x) * (x' * x) = 2 * ρ * x' := by
    field_simp
  rw [e2]
  have h3 : ρ * x ≤ 2 * ρ * x' := by
    have := mul_le_mul_of_nonneg_left (show x ≤ 2 * x' by linarith) hρ0
    linarith
  linarith

/-- C169 (partial). **Mean recurrence times in double arithmetic**: for a stochastic irreducible aperiodic chain under the
conditions of `C169_accuracy_partial`, the recurrence time of every state with a stationary probability above `2e-8` has
a relative error of at most `13 n ^ 3 / 2 ^ 53`. Rarer states may get the time zero (`C45_rare_state`). -/
theorem C169_recurrence_partial {c : MC ℚ} (hc : c.Valid) {d : ℕ} (hn : (d + 2) * c.n ≤ 500)
    (hd : ∀ i j, 0 < c.p i j → 1 / 2 ^ d ≤ c.p i j) {nx : Nx c.n} (hx : nx.Sound c.p) (he : Ergodic c.p) :
    ∃ x t, IsStationary c.p x ∧ meanRecurrenceTimesF (Arith.rounded double) c nx = .ok (some t) ∧
      ∀ i, 2 / 10 ^ 8 < x i → |t i - 1 / x i| ≤ 13 * (c.n : ℚ) ^ 3 / 2 ^ 53 * (1 / x i) := by
  obtain ⟨l, h1, h2⟩ := C169_stationary_partial hc hn hd hx.sccs
  obtain ⟨C, hC, hall⟩ := recurrentIdx_irreducible hc.1 hx.sccs he.1
  rw [hC] at h2
  obtain ⟨x', rfl, x, hst, hpos, hacc⟩ := forall2_singleton h2
  have hn250 : c.n ≤ 250 := by
    have : 2 * c.n ≤ (d + 2) * c.n := Nat.mul_le_mul_right _ (by omega)
    omega
  have hn2 : (2 : ℚ) ≤ c.n := by exact_mod_cast hc.1
  have h3 : (c.n : ℚ) ^ 3 ≤ 250 ^ 3 := pow_le_pow_left₀ (by positivity) (by exact_mod_cast hn250) 3
  have h8 : (2 : ℚ) ^ 3 ≤ (c.n : ℚ) ^ 3 := pow_le_pow_left₀ (by norm_num) hn2 3
  obtain ⟨N, hN⟩ : ∃ N : ℚ, N = (c.n : ℚ) ^ 3 := ⟨_, rfl⟩
  rw [← hN] at h3 h8
  refine ⟨x, fun i => if isclose (x' i) 0 then 0 else double (1 / x' i), hst, ?_, fun i hi => ?_⟩
  · unfold meanRecurrenceTimesF
    rw [if_pos ((isErgodic_iff hc hx).2 he), h1]
    rfl
  · have hxi : 0 < x i := lt_trans (by norm_num) hi
    have hx1 : x i ≤ 1 := (single_le_sum (fun k _ => hst.1.1 k) (mem_univ i)).trans hst.1.2.le
    have hρ := (hacc i).2
    rw [← hN] at hρ ⊢
    have hρ0 : 0 ≤ 6 * N / 2 ^ 53 := by
      norm_num at h8 ⊢
      linarith
    have hρ1 : 6 * N / 2 ^ 53 ≤ 1 / 10 ^ 6 := by
      rw [div_le_iff₀ (by norm_num)]
      norm_num at h3 ⊢
      linarith
    obtain ⟨g1, g2⟩ := reciprocal_error hxi (hρ1.trans (by norm_num)) hρ0 hρ
    have hlo : (1 - 1 / 10 ^ 6) * x i ≤ x' i := by
      have := (abs_le.1 hρ).1
      have h5 := mul_le_mul_of_nonneg_right hρ1 hxi.le
      linarith
    have hhi : x' i ≤ 2 := by
      have := (abs_le.1 hρ).2
      have h5 := mul_le_mul_of_nonneg_right hρ1 hxi.le
      norm_num at h5
      linarith
    have hnot : ¬ isclose (x' i) 0 = true := by
      unfold isclose
      rw [decide_eq_true_eq, sub_zero, abs_zero, mul_zero, add_zero, abs_of_pos g1, not_le]
      norm_num at hlo hi ⊢
      linarith
    dsimp only
    rw [if_neg hnot]
    obtain ⟨y, hy⟩ : ∃ y, y = 1 / x' i := ⟨_, rfl⟩
    rw [← hy] at g2 ⊢
    have hy0 : 1 / 2 ≤ y := by
      rw [hy]
      exact one_div_le_one_div_of_le g1 hhi
    have hdb : double y = binary64 y := double_large (le_trans (by
      refine one_div_le_one_div_of_le (by norm_num) ?_
      exact le_self_pow₀ (by norm_num) (by norm_num)) hy0)
    rw [hdb]
    have g3 := binary64_near y
    rw [abs_of_nonneg (show 0 ≤ y by linarith)] at g3
    have g4 := abs_sub_le (binary64 y) y (1 / x i)
    have hr0 : 0 < 1 / x i := one_div_pos.2 hxi
    obtain ⟨z, hz⟩ : ∃ z, z = 1 / x i := ⟨_, rfl⟩
    rw [← hz] at g2 g4 hr0 ⊢
    have g5 : y ≤ 2 * z := by
      have := (abs_le.1 g2).2
      have h5 := mul_le_mul_of_nonneg_right hρ1 hr0.le
      norm_num at h5
      linarith
    have g6 : 1 / 2 ^ 53 * y ≤ N / 2 ^ 53 * z := by
      have h5 : (1 : ℚ) / 2 ^ 53 * y ≤ 1 / 2 ^ 53 * (2 * z) := mul_le_mul_of_nonneg_left g5 (by norm_num)
      have h6 : (2 : ℚ) / 2 ^ 53 * z ≤ N / 2 ^ 53 * z :=
        mul_le_mul_of_nonneg_right (div_le_div_of_nonneg_right (by linarith) (by norm_num)) hr0.le
      linarith
    have e : 13 * N / 2 ^ 53 * z = N / 2 ^ 53 * z + 2 * (6 * N / 2 ^ 53) * z := by ring
    rw [e]
    linarith

end Verif
