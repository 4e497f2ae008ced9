import Verif.Props.RoundedMeasures
import Verif.Lemmas.Double

/-!
# Rounding of lazy and merged chains (C150)

The matrices of `to_lazy_chain` and `merge_with`, computed in floating point, pass the checks of the constructor.
-/

namespace Verif

open Finset

set_option linter.unusedSectionVars false

variable {K : Type} [Field K] [LinearOrder K] [IsStrictOrderedRing K] {u : K}

theorem IsRounding.le_self {fl : K → K} (h : IsRounding fl u) {a x : K} (ha : fl a = a) (hx : 0 ≤ x) (hxa : x ≤ a) :
    fl x ≤ a := by
  rw [← ha]
  exact h.mono _ _ hx hxa

/-- The weight that is left. -/
theorem IsRounding.rest {fl : K → K} (h : IsRounding fl u) {w : K} (h0 : 0 ≤ w) (h1 : w ≤ 1) :
    0 ≤ fl (1 - w) ∧ fl (1 - w) ≤ 1 ∧ fl (1 - w) + w ≤ 1 + u := by
  have e := h.near (1 - w)
  rw [abs_of_nonneg (sub_nonneg.2 h1)] at e
  have e1 := (abs_le.1 e).2
  refine ⟨h.nonneg (sub_nonneg.2 h1), h.le_self h.one (sub_nonneg.2 h1) (by linarith), ?_⟩
  have e2 : u * (1 - w) ≤ u := mul_le_of_le_one_right h.unit_nonneg (by linarith)
  linarith

theorem IsRounding.acc {fl : K → K} (h : IsRounding fl u) {x : K} (hx : 0 ≤ x) :
    Acc (1 / (1 - u)) 1 (fl x) x := by
  have e : Acc (1 / (1 - u)) (0 + 1) ((Arith.rounded fl).add x 0) (x + 0) :=
    Acc.add h.sound (Acc.refl hx) (Acc.refl le_rfl)
  change Acc (1 / (1 - u)) 1 (fl (x + 0)) (x + 0) at e
  rwa [add_zero] at e

/-- Accepted rows. -/
theorem accepted_row {fl : K → K} (h : IsRounding fl u) {n : ℕ} {x' x : Fin n → K} {N : ℕ}
    (hx : ∀ j, Acc (1 / (1 - u)) N (x' j) (x j)) (hs : |∑ j, x j - 1| ≤ 1 / 10 ^ 5)
    (hu : (N + n) * u ≤ 1 / (3 * 10 ^ 8)) : isclose ((Arith.rounded fl).sum (List.ofFn x')) 1 := by
  have e : Acc (1 / (1 - u)) (N + n) ((Arith.rounded fl).sum (List.ofFn x')) (∑ j, x j) := Acc.sum h.sound hx
  have e2 := e.relative h.sound (by push_cast; exact hu.trans (by norm_num))
  unfold isclose
  rw [decide_eq_true_eq, abs_one, mul_one]
  push_cast at e2
  obtain ⟨a1, a2⟩ := abs_le.1 hs
  have h1 : ∑ j, x j ≤ 1 + 1 / 10 ^ 5 := by linarith
  have h2 : 2 * ((N + n) * u) * ∑ j, x j ≤ 2 * (1 / (3 * 10 ^ 8)) * (1 + 1 / 10 ^ 5) :=
    mul_le_mul (by linarith) h1 e.exact_nonneg (by norm_num)
  have h3 : (2 : K) * (1 / (3 * 10 ^ 8)) * (1 + 1 / 10 ^ 5) ≤ 1 / 10 ^ 8 := by norm_num
  have h4 : (Arith.rounded fl).sum (List.ofFn x') - 1 =
      ((Arith.rounded fl).sum (List.ofFn x') - ∑ j, x j) + (∑ j, x j - 1) := by ring
  rw [h4]
  refine (abs_add_le _ _).trans ?_
  linarith

/-- C150, partial: lazy chains. The matrix of `to_lazy_chain`, computed in floating point, passes the checks of the
constructor on entries and on the computed sums of the rows. The condition `fl (1 + u) = 1` is the rounding of the
middle between one and the next number. -/
theorem C150_lazy_partial {fl : K → K} (h : IsRounding fl u) (htie : fl (1 + u) = 1) {n : ℕ}
    {P : Matrix (Fin n) (Fin n) K} (hP : ∀ i j, 0 ≤ P i j ∧ P i j ≤ 1) (hs : ∀ i, |∑ j, P i j - 1| ≤ 1 / 10 ^ 5)
    {w : Fin n → K} (hw : ∀ i, 0 ≤ w i ∧ w i ≤ 1) (hu : (n + 3) * u ≤ 1 / (3 * 10 ^ 8)) (i : Fin n) :
    (∀ j, 0 ≤ lazyMatrixF fl P w i j ∧ lazyMatrixF fl P w i j ≤ 1 ∧
      Acc (1 / (1 - u)) 3 (lazyMatrixF fl P w i j) (lazyMatrix P w i j)) ∧
    isclose ((Arith.rounded fl).sum (List.ofFn fun j => lazyMatrixF fl P w i j)) 1 := by
  obtain ⟨r0, r1, r2⟩ := h.rest (hw i).1 (hw i).2
  have hid : fl (fl (1 - w i)) = fl (1 - w i) := h.idem _ (sub_nonneg.2 (hw i).2)
  have hacc : ∀ j, Acc (1 / (1 - u)) 3 (lazyMatrixF fl P w i j) (lazyMatrix P w i j) := by
    intro j
    have h1 := h.sound.one_le
    have e1 : Acc (1 / (1 - u)) (1 + 0 + 1) (fl (fl (1 - w i) * P i j)) ((1 - w i) * P i j) :=
      Acc.mul h.sound (h.acc (sub_nonneg.2 (hw i).2)) (Acc.refl (hP i j).1)
    have e2 : Acc (1 / (1 - u)) (1 + 0 + 1) ((if i = j then 1 else 0) * w j) ((if i = j then 1 else 0) * w j) :=
      (Acc.refl (mul_nonneg (by split_ifs <;> norm_num) (hw j).1)).mono h1 (by omega)
    exact Acc.add h.sound e1 e2
  refine ⟨fun j => ⟨(hacc j).nonneg h.sound.one_le, ?_, hacc j⟩, ?_⟩
  · have hm : 0 ≤ fl (1 - w i) * P i j := mul_nonneg r0 (hP i j).1
    have hle : fl (fl (1 - w i) * P i j) ≤ fl (1 - w i) :=
      h.le_self hid hm (mul_le_of_le_one_right r0 (hP i j).2)
    unfold lazyMatrixF
    have hw' : (if i = j then (1 : K) else 0) * w j ≤ w i := by
      split_ifs with hij
      · rw [hij, one_mul]
      · rw [zero_mul]
        exact (hw i).1
    refine (h.mono _ _ (add_nonneg (h.nonneg hm) (mul_nonneg (by split_ifs <;> norm_num) (hw j).1)) ?_).trans_eq htie
    linarith
  · refine accepted_row h hacc ?_ (by push_cast; linarith)
    have e : ∑ j, lazyMatrix P w i j - 1 = (1 - w i) * (∑ j, P i j - 1) := by
      unfold lazyMatrix
      rw [sum_add_distrib, ← mul_sum]
      simp only [ite_mul, one_mul, zero_mul, sum_ite_eq, mem_univ, if_true]
      ring
    rw [e, abs_mul, abs_of_nonneg (sub_nonneg.2 (hw i).2)]
    exact (mul_le_of_le_one_left (abs_nonneg _) (by linarith [(hw i).1])).trans (hs i)

/-- C150, partial: merged chains. The matrix of `merge_with`, computed in floating point with a weight that is a
floating point number, passes the checks of the constructor on entries and on the computed sums of the rows. -/
theorem C150_merged_partial {fl : K → K} (h : IsRounding fl u) (htie : fl (1 + u) = 1) {n : ℕ}
    {P Q : Matrix (Fin n) (Fin n) K} (hP : ∀ i j, 0 ≤ P i j ∧ P i j ≤ 1) (hQ : ∀ i j, 0 ≤ Q i j ∧ Q i j ≤ 1)
    (hsP : ∀ i, |∑ j, P i j - 1| ≤ 1 / 10 ^ 5) (hsQ : ∀ i, |∑ j, Q i j - 1| ≤ 1 / 10 ^ 5)
    {g : K} (hg : 0 ≤ g ∧ g ≤ 1) (hg' : fl g = g) (hu : (n + 3) * u ≤ 1 / (3 * 10 ^ 8)) (i : Fin n) :
    (∀ j, 0 ≤ mergeMatrixF fl P Q g i j ∧ mergeMatrixF fl P Q g i j ≤ 1 ∧
      Acc (1 / (1 - u)) 3 (mergeMatrixF fl P Q g i j) ((1 - g) * P i j + g * Q i j)) ∧
    isclose ((Arith.rounded fl).sum (List.ofFn fun j => mergeMatrixF fl P Q g i j)) 1 := by
  obtain ⟨r0, r1, r2⟩ := h.rest hg.1 hg.2
  have hid : fl (fl (1 - g)) = fl (1 - g) := h.idem _ (sub_nonneg.2 hg.2)
  have hacc : ∀ j, Acc (1 / (1 - u)) 3 (mergeMatrixF fl P Q g i j) ((1 - g) * P i j + g * Q i j) := by
    intro j
    have h1 := h.sound.one_le
    have e1 : Acc (1 / (1 - u)) (1 + 0 + 1) (fl (fl (1 - g) * P i j)) ((1 - g) * P i j) :=
      Acc.mul h.sound (h.acc (sub_nonneg.2 hg.2)) (Acc.refl (hP i j).1)
    have e2 : Acc (1 / (1 - u)) (1 + 0 + 1) (fl (g * Q i j)) (g * Q i j) :=
      (h.acc (mul_nonneg hg.1 (hQ i j).1)).mono h1 (by omega)
    exact Acc.add h.sound e1 e2
  refine ⟨fun j => ⟨(hacc j).nonneg h.sound.one_le, ?_, hacc j⟩, ?_⟩
  · have hm : 0 ≤ fl (1 - g) * P i j := mul_nonneg r0 (hP i j).1
    have hq : 0 ≤ g * Q i j := mul_nonneg hg.1 (hQ i j).1
    have hle : fl (fl (1 - g) * P i j) ≤ fl (1 - g) :=
      h.le_self hid hm (mul_le_of_le_one_right r0 (hP i j).2)
    have hle' : fl (g * Q i j) ≤ g := h.le_self hg' hq (mul_le_of_le_one_right hg.1 (hQ i j).2)
    unfold mergeMatrixF
    refine (h.mono _ _ (add_nonneg (h.nonneg hm) (h.nonneg hq)) ?_).trans_eq htie
    linarith
  · refine accepted_row h hacc ?_ (by push_cast; linarith)
    have e : ∑ j, ((1 - g) * P i j + g * Q i j) - 1 = (1 - g) * (∑ j, P i j - 1) + g * (∑ j, Q i j - 1) := by
      rw [sum_add_distrib, ← mul_sum, ← mul_sum]
      ring
    rw [e]
    refine (abs_add_le _ _).trans ?_
    rw [abs_mul, abs_mul, abs_of_nonneg (sub_nonneg.2 hg.2), abs_of_nonneg hg.1]
    have a1 := mul_le_mul_of_nonneg_left (hsP i) (sub_nonneg.2 hg.2)
    have a2 := mul_le_mul_of_nonneg_left (hsQ i) hg.1
    linarith

theorem binary64_tie : binary64 (1 + 1 / 2 ^ 53) = 1 := by decide +kernel

/-- Doubles: a lazy and a merged chain of two states. -/
example (i : Fin 2) :
    isclose ((Arith.rounded binary64).sum (List.ofFn fun j => lazyMatrixF binary64
      (fun i j : Fin 2 => (![![1 / 4, 3 / 4], ![0, 1]] i j : ℚ)) (fun _ => 1 / 3) i j)) 1 :=
  (C150_lazy_partial binary64_rounding binary64_tie (by decide +kernel) (by decide +kernel) (by norm_num)
    (by norm_num) i).2

example (i : Fin 2) :
    isclose ((Arith.rounded binary64).sum (List.ofFn fun j => mergeMatrixF binary64
      (fun i j : Fin 2 => (![![1 / 4, 3 / 4], ![0, 1]] i j : ℚ)) (fun i j : Fin 2 => (![![1 / 3, 2 / 3], ![1, 0]] i j : ℚ))
        (1 / 4) i j)) 1 :=
  (C150_merged_partial binary64_rounding binary64_tie (by decide +kernel) (by decide +kernel) (by decide +kernel)
    (by decide +kernel) (by norm_num) (by decide +kernel) (by norm_num) i).2

end Verif
