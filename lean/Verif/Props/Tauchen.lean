import Verif.Model.Random
import Verif.Lemmas.Generators
import Verif.Props.Validation
import Verif.Spec.Valid
import Mathlib.Tactic.Linarith
import Mathlib.Tactic.Ring
import Mathlib.Tactic.FieldSimp
import Mathlib.Algebra.BigOperators.Fin
import Mathlib.Algebra.BigOperators.Field

/-!
# Tauchen approximation (C19)
-/

set_option linter.unusedSectionVars false

namespace Verif

variable {K : Type} [Field K] [LinearOrder K] [IsStrictOrderedRing K]

/-- The cut points of the telescoping sum: `cut j` lies between node `j - 1` and node `j`. -/
def tauchenCut (cdf : K → K) (size : ℕ) (sigma rho xmax : K) (i j : ℕ) : K :=
  if j = 0 then 0
  else if j = size then 1
  else cdf ((tauchenNode size xmax j - rho * tauchenNode size xmax i -
    1 / 2 * ((xmax - -xmax) / ((size - 1 : ℕ) : K))) / sigma)

theorem tauchen_node_step {size : ℕ} (xmax : K) (j : ℕ) :
    tauchenNode size xmax j + 1 / 2 * ((xmax - -xmax) / ((size - 1 : ℕ) : K)) =
      tauchenNode size xmax (j + 1) - 1 / 2 * ((xmax - -xmax) / ((size - 1 : ℕ) : K)) := by
  unfold tauchenNode
  push_cast
  ring

theorem tauchenMatrix_eq {cdf : K → K} {size : ℕ} (hs : 2 ≤ size) (sigma rho xmax : K)
    (i j : Fin size) :
    tauchenMatrix cdf size sigma rho xmax i j =
      tauchenCut cdf size sigma rho xmax i (j + 1) - tauchenCut cdf size sigma rho xmax i j := by
  have hj : (j : ℕ) < size := j.isLt
  have up : ∀ m : ℕ, tauchenNode size xmax m - rho * tauchenNode size xmax i +
      1 / 2 * ((xmax - -xmax) / ((size - 1 : ℕ) : K)) =
      tauchenNode size xmax (m + 1) - rho * tauchenNode size xmax i -
      1 / 2 * ((xmax - -xmax) / ((size - 1 : ℕ) : K)) := by
    intro m
    have := tauchen_node_step (size := size) xmax m
    linarith
  unfold tauchenMatrix tauchenCut
  by_cases h0 : (j : ℕ) = 0
  · simp only [h0, if_true]
    rw [if_neg (by omega), if_neg (by omega), up 0]
    simp
  · simp only [h0, if_false]
    by_cases h1 : (j : ℕ) = size - 1
    · rw [if_pos h1, if_neg (by omega), if_pos (by omega), if_neg (by omega), h1]
    · rw [if_neg h1, if_neg (by omega), if_neg (by omega), if_neg (by omega), up]

theorem tauchenCut_mono {cdf : K → K} (h0 : ∀ x, 0 ≤ cdf x) (h1 : ∀ x, cdf x ≤ 1)
    (hm : Monotone cdf) {size : ℕ} {sigma : K} (hσ : 0 < sigma) (rho : K) {xmax : K}
    (hx : 0 ≤ xmax) (i j : ℕ) (hj : j < size) :
    tauchenCut cdf size sigma rho xmax i j ≤ tauchenCut cdf size sigma rho xmax i (j + 1) := by
  unfold tauchenCut
  rw [if_neg (Nat.succ_ne_zero j), if_neg (hj.ne : j ≠ size)]
  by_cases hj0 : j = 0
  · rw [if_pos hj0]
    split
    · exact zero_le_one
    · exact h0 _
  · rw [if_neg hj0]
    split
    · exact h1 _
    · refine hm (div_le_div_of_nonneg_right ?_ hσ.le)
      have : (0:K) ≤ (xmax - -xmax) / ((size - 1 : ℕ) : K) :=
        div_nonneg (by linarith) (Nat.cast_nonneg _)
      unfold tauchenNode
      push_cast
      linarith

theorem tauchen_stochastic {cdf : K → K} (h0 : ∀ x, 0 ≤ cdf x) (h1 : ∀ x, cdf x ≤ 1)
    (hm : Monotone cdf) {size : ℕ} (hs : 2 ≤ size) {sigma : K} (hσ : 0 < sigma) (rho : K) {xmax : K}
    (hx : 0 ≤ xmax) : IsStochastic (tauchenMatrix cdf size sigma rho xmax) := by
  constructor
  · intro i j
    rw [tauchenMatrix_eq hs]
    exact sub_nonneg.2 (tauchenCut_mono h0 h1 hm hσ rho hx i j j.isLt)
  · intro i
    refine (Finset.sum_congr rfl fun j _ => tauchenMatrix_eq hs sigma rho xmax i j).trans ?_
    rw [Fin.sum_univ_eq_sum_range (fun j => tauchenCut cdf size sigma rho xmax i (j + 1) -
      tauchenCut cdf size sigma rho xmax i j), Finset.sum_range_sub]
    unfold tauchenCut
    rw [if_neg (by omega), if_pos rfl, if_pos rfl, sub_zero]

theorem tauchen_partial_sum {cdf : K → K} {size : ℕ} (hs : 2 ≤ size) (sigma rho xmax : K)
    (i : Fin size) {m : ℕ} (hm : m + 1 < size) :
    ∑ j ∈ Finset.univ.filter (fun j : Fin size => (j : ℕ) ≤ m),
      tauchenMatrix cdf size sigma rho xmax i j =
      cdf (((tauchenNode size xmax m + tauchenNode size xmax (m + 1)) / 2 -
        rho * tauchenNode size xmax i) / sigma) := by
  have e : ∑ j ∈ Finset.univ.filter (fun j : Fin size => (j : ℕ) ≤ m),
      tauchenMatrix cdf size sigma rho xmax i j =
      ∑ j ∈ Finset.range (m + 1), (tauchenCut cdf size sigma rho xmax i (j + 1) -
        tauchenCut cdf size sigma rho xmax i j) := by
    refine Finset.sum_bij (fun j _ => (j : ℕ)) ?_ ?_ ?_ ?_
    · intro j hj
      simp only [Finset.mem_filter, Finset.mem_univ, true_and] at hj
      simp only [Finset.mem_range]; omega
    · intro a _ b _ hab
      exact Fin.ext hab
    · intro b hb
      simp only [Finset.mem_range] at hb
      exact ⟨⟨b, by omega⟩, by simp; omega, rfl⟩
    · intro j _
      exact tauchenMatrix_eq hs sigma rho xmax i j
  rw [e, Finset.sum_range_sub]
  unfold tauchenCut
  rw [if_neg (by omega), if_neg (by omega), if_pos rfl, sub_zero]
  congr 2
  have := tauchen_node_step (size := size) xmax m
  have h2 : tauchenNode size xmax (m + 1) - 1 / 2 * ((xmax - -xmax) / ((size - 1 : ℕ) : K)) =
      (tauchenNode size xmax m + tauchenNode size xmax (m + 1)) / 2 := by linarith
  rw [← h2]
  ring

/-- C19. For every cumulative distribution function and every accepted call, the result is a valid
chain. Its states are `c.n` equally spaced points `x` from minus to plus `kk` times the deviation of
the process, where `kk` is `k` or three by default; a correlation close to one is replaced. The chain moves
from `x i` to one of the points up to `x m` with the probability that `rho * x i` plus the innovation
is below the middle of `x m` and `x (m + 1)`. -/
theorem C19_tauchen_partial {sqrt cdf : K → K} (hq : ∀ x, 0 ≤ sqrt x) (h0 : ∀ x, 0 ≤ cdf x)
    (h1 : ∀ x, cdf x ≤ 1) (hm : Monotone cdf) {size alpha sigma rho states k : PyVal K} {c : MC K}
    (h : approximationTauchen sqrt cdf size alpha sigma rho states k = .ok c) :
    c.Valid ∧ size = .int c.n ∧ ∃ (s r r' kk xmax : K) (x : ℕ → K), sigma = .float (.fin s) ∧
      rho = .float (.fin r') ∧ -1 ≤ r' ∧ r' ≤ 1 ∧ (isclose r' 1 = false → r = r') ∧
      (isclose r' 1 = true → r = 1 - 1 / 10 ^ 8) ∧ (k = .none → kk = 3) ∧
      (k ≠ .none → k = .float (.fin kk) ∧ 1 ≤ kk) ∧ xmax = kk * sqrt (s ^ 2 / (1 - r ^ 2)) ∧
      (∀ j, x j = -xmax + 2 * xmax * j / ((c.n : K) - 1)) ∧
      ∀ (i : Fin c.n) (m : ℕ), m + 1 < c.n → ∑ j ∈ Finset.univ.filter (fun j : Fin c.n => (j : ℕ) ≤ m),
        c.p i j = cdf (((x m + x (m + 1)) / 2 - r * x i) / s) := by
  unfold approximationTauchen at h
  rw [R.bind_ok] at h
  obtain ⟨z, hz, h⟩ := h
  obtain ⟨rfl, hz⟩ := validateInteger_ge hz
  rw [R.bind_ok] at h
  obtain ⟨_, -, h⟩ := h
  rw [R.bind_ok] at h
  obtain ⟨s, hs, h⟩ := h
  rw [C03_float_limits] at hs
  have hs0 : 0 < s := hs.2.1 0 rfl
  rw [R.bind_ok] at h
  obtain ⟨r, hr, h⟩ := h
  rw [R.bind_ok] at h
  obtain ⟨l, hl, h⟩ := h
  rw [R.bind_ok] at h
  obtain ⟨kk, hk, h⟩ := h
  have hkk : (k = .none → kk = 3) ∧ (k ≠ .none → k = .float (.fin kk) ∧ 1 ≤ kk) := by
    split at hk
    · rw [R.pure_ok] at hk
      exact ⟨fun _ => hk.symm, fun h => absurd rfl h⟩
    · rw [C03_float_limits] at hk
      exact ⟨fun h => (by simp_all), fun _ => ⟨hk.1, hk.2.2.1 1 rfl⟩⟩
  have hk0 : 0 ≤ kk := by
    by_cases hkn : k = .none
    · rw [hkk.1 hkn]; norm_num
    · linarith [(hkk.2 hkn).2]
  simp only at h
  rw [R.ite_throw] at h
  obtain ⟨-, h⟩ := h
  rw [R.pure_ok] at h
  subst h
  have hz2 : 2 ≤ z.toNat := by omega
  refine ⟨⟨hz2, tauchen_stochastic h0 h1 hm hz2 hs0 _ (mul_nonneg (hq _) hk0),
    labelsOrDefault_sound hl⟩, by simp; omega, s, if isclose r 1 then 1 - 1 / 10 ^ 8 else r, r, kk,
    sqrt (s ^ 2 / (1 - (if isclose r 1 then 1 - 1 / 10 ^ 8 else r) ^ 2)) * kk,
    tauchenNode z.toNat (sqrt (s ^ 2 / (1 - (if isclose r 1 then 1 - 1 / 10 ^ 8 else r) ^ 2)) * kk),
    hs.1, (validateFloat_closed hr).1, (validateFloat_closed hr).2.1, (validateFloat_closed hr).2.2,
    fun hc => by rw [hc]; rfl, fun hc => if_pos hc, hkk.1, hkk.2, mul_comm _ _, ?_, ?_⟩
  · intro j
    simp only [tauchenNode]
    rw [Nat.cast_sub (by omega : 1 ≤ z.toNat), Nat.cast_one]
    ring
  · intro i m hm1
    exact tauchen_partial_sum hz2 _ _ _ i hm1

/-- C19, calls are accepted: every size from two, every positive deviation, and every correlation
strictly inside the interval and not close to one. -/
theorem C19_accepts (sqrt cdf : K → K) (n : ℕ) (hn : 2 ≤ n) {s r : K} (hs : 0 < s) (hr : -1 < r)
    (hr' : r ≤ 1) (hc : isclose r 1 = false) :
    ∃ c, approximationTauchen sqrt cdf (.int n) (.float (.fin 0)) (.float (.fin s))
      (.float (.fin r)) .none .none = .ok c := by
  unfold approximationTauchen
  rw [validateInteger_of_ge (by exact_mod_cast hn), R.ok_bind,
    show validateFloat (.float (.fin (0:K))) none none = .ok 0 by
      rw [C03_float_limits]; simp [WithinLimits], R.ok_bind,
    show validateFloat (.float (.fin s)) (some (0, true)) none = .ok s by
      rw [C03_float_limits]; simp [WithinLimits, hs], R.ok_bind,
    validateFloat_of_closed hr.le hr', R.ok_bind]
  erw [R.ok_bind, R.ok_bind]
  simp only [hc, Bool.false_eq_true, if_false]
  rw [if_neg]
  · exact ⟨_, rfl⟩
  · have : r ≠ 1 := by
      rintro rfl
      simp [isclose] at hc
      exact absurd hc (by positivity : (0:K) < (10 ^ 8)⁻¹ + (10 ^ 5)⁻¹).not_gt
    have h1 : r < 1 := lt_of_le_of_ne hr' this
    nlinarith

/-- C19, disagreement. The correlation `-1` passes the validation and the division by zero raises. -/
theorem C19_minus_one_raises (sqrt cdf : ℚ → ℚ) : approximationTauchen sqrt cdf (.int 2)
    (.float (.fin 0)) (.float (.fin 1)) (.float (.fin (-1))) .none .none = .error .valueError := by
  have h : ∀ x, validateFloat (.float (.fin (-1:ℚ))) (some (-1, false)) (some (1, false)) = .ok x →
      x = -1 := by
    intro x hx
    have := (validateFloat_closed hx).1
    simpa using this.symm
  unfold approximationTauchen
  rw [validateInteger_of_ge (by norm_num), R.ok_bind,
    show validateFloat (.float (.fin (0:ℚ))) none none = .ok 0 by
      rw [C03_float_limits]; simp [WithinLimits], R.ok_bind,
    show validateFloat (.float (.fin (1:ℚ))) (some (0, true)) none = .ok 1 by
      rw [C03_float_limits]; simp [WithinLimits], R.ok_bind,
    validateFloat_of_closed le_rfl (by norm_num), R.ok_bind]
  erw [R.ok_bind, R.ok_bind]
  have hc : isclose (-1:ℚ) 1 = false := by decide +kernel
  simp only [hc, Bool.false_eq_true, if_false]
  rw [if_pos (by norm_num)]
  rfl

end Verif
