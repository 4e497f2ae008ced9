import Verif.Spec.Growth
import Mathlib.Analysis.Normed.Algebra.GelfandFormula
import Mathlib.Analysis.Matrix.Normed
import Mathlib.LinearAlgebra.Matrix.Charpoly.Eigs
import Mathlib.Analysis.SpecialFunctions.Pow.Continuity
import Mathlib.Analysis.SpecialFunctions.Log.Basic
import Mathlib.Analysis.Normed.Module.FiniteDimension
import Mathlib.Algebra.Order.Chebyshev

/-!
# The growth of the powers of a nonnegative matrix
-/

namespace Verif

open Finset Filter Topology

attribute [local instance] Matrix.linftyOpNormedRing Matrix.linftyOpNormedAlgebra
  Matrix.linftyOpNormedAddCommGroup Matrix.linftyOpNormedSpace

variable {n : ℕ} {A : Matrix (Fin n) (Fin n) ℝ}

/-- The sum of all elements. -/
def total (A : Matrix (Fin n) (Fin n) ℝ) : ℝ := ∑ i, ∑ j, A i j

theorem norm_le_total (h : ∀ i j, 0 ≤ A i j) : ‖A.map (algebraMap ℝ ℂ)‖ ≤ total A := by
  have h0 : 0 ≤ total A := Finset.sum_nonneg fun i _ => Finset.sum_nonneg fun j _ => h i j
  rw [Matrix.linfty_opNorm_def]
  have : (Finset.univ.sup fun i : Fin n => ∑ j, ‖(A.map (algebraMap ℝ ℂ)) i j‖₊)
      ≤ (⟨total A, h0⟩ : NNReal) := by
    refine Finset.sup_le fun i _ => ?_
    refine NNReal.coe_le_coe.1 ?_
    rw [NNReal.coe_sum]
    change ∑ j, ‖(A.map (algebraMap ℝ ℂ)) i j‖ ≤ total A
    have e : ∀ j, ‖(A.map (algebraMap ℝ ℂ)) i j‖ = A i j := fun j => by
      rw [Matrix.map_apply, norm_algebraMap', Real.norm_of_nonneg (h i j)]
    simp only [e]
    exact Finset.single_le_sum (f := fun i => ∑ j, A i j)
      (fun i _ => Finset.sum_nonneg fun j _ => h i j) (mem_univ i)
  exact this

theorem row_le_norm (h : ∀ i j, 0 ≤ A i j) (i : Fin n) :
    ∑ j, A i j ≤ ‖A.map (algebraMap ℝ ℂ)‖ := by
  rw [Matrix.linfty_opNorm_def]
  have h1 := Finset.le_sup (f := fun i : Fin n => ∑ j, ‖(A.map (algebraMap ℝ ℂ)) i j‖₊) (mem_univ i)
  refine le_trans (le_of_eq ?_) (NNReal.coe_le_coe.2 h1)
  push_cast
  refine Finset.sum_congr rfl fun j _ => ?_
  rw [Matrix.map_apply, norm_algebraMap', Real.norm_of_nonneg (h i j)]

theorem total_le_norm (h : ∀ i j, 0 ≤ A i j) : total A ≤ n * ‖A.map (algebraMap ℝ ℂ)‖ := by
  refine (Finset.sum_le_sum fun i _ => row_le_norm h i).trans ?_
  rw [Finset.sum_const, Finset.card_univ, Fintype.card_fin, nsmul_eq_mul]

theorem pow_map (t : ℕ) : (A.map (algebraMap ℝ ℂ)) ^ t = (A ^ t).map (algebraMap ℝ ℂ) :=
  (map_pow (algebraMap ℝ ℂ).mapMatrix A t).symm

/-- The largest modulus of an eigenvalue is the spectral radius. -/
theorem spectralRadius_eq {m : ℝ} (hm : ∀ z ∈ (A.map (algebraMap ℝ ℂ)).charpoly.roots, ‖z‖ ≤ m)
    (hex : ∃ z ∈ (A.map (algebraMap ℝ ℂ)).charpoly.roots, ‖z‖ = m) :
    spectralRadius ℂ (A.map (algebraMap ℝ ℂ)) = ENNReal.ofReal m := by
  have hs : ∀ z, z ∈ spectrum ℂ (A.map (algebraMap ℝ ℂ)) ↔
      z ∈ (A.map (algebraMap ℝ ℂ)).charpoly.roots := fun z => by
    rw [Polynomial.mem_roots (Matrix.charpoly_monic _).ne_zero,
      Matrix.mem_spectrum_iff_isRoot_charpoly]
  refine le_antisymm ?_ ?_
  · refine iSup₂_le fun z hz => ?_
    rw [← enorm_eq_nnnorm, ← ofReal_norm]
    exact ENNReal.ofReal_le_ofReal (hm z ((hs z).1 hz))
  · obtain ⟨z, hz, rfl⟩ := hex
    rw [ofReal_norm, enorm_eq_nnnorm]
    exact le_iSup₂ (f := fun k (_ : k ∈ spectrum ℂ (A.map (algebraMap ℝ ℂ))) => (‖k‖₊ : ENNReal)) z
      ((hs z).2 hz)

/-- The growth rate of the totals of the powers is the logarithm of the largest modulus of an
eigenvalue. -/
theorem growth_rate (h : ∀ i j, 0 ≤ A i j) (hone : ∀ t : ℕ, n ≤ total (A ^ t)) (h0 : 0 < n)
    {m : ℝ} (hm : ∀ z ∈ (A.map (algebraMap ℝ ℂ)).charpoly.roots, ‖z‖ ≤ m)
    (hex : ∃ z ∈ (A.map (algebraMap ℝ ℂ)).charpoly.roots, ‖z‖ = m) :
    1 ≤ m ∧ Tendsto (fun t : ℕ => Real.log (total (A ^ t)) / t) atTop (𝓝 (Real.log m)) := by
  have hn : (0 : ℝ) < n := by exact_mod_cast h0
  obtain ⟨B, hB⟩ : ∃ B, B = A.map (algebraMap ℝ ℂ) := ⟨_, rfl⟩
  have hpow : ∀ t i j, 0 ≤ (A ^ t) i j := by
    intro t
    induction t with
    | zero => intro i j; rw [pow_zero, Matrix.one_apply]; split <;> norm_num
    | succ t ih =>
      intro i j
      rw [pow_succ, Matrix.mul_apply]
      exact Finset.sum_nonneg fun k _ => mul_nonneg (ih i k) (h k j)
  have hup : ∀ t : ℕ, ‖B ^ t‖ ≤ total (A ^ t) := fun t => by
    rw [hB, pow_map]; exact norm_le_total (hpow t)
  have hlo : ∀ t : ℕ, total (A ^ t) ≤ n * ‖B ^ t‖ := fun t => by
    rw [hB, pow_map]; exact total_le_norm (hpow t)
  have hge : ∀ t : ℕ, 1 ≤ ‖B ^ t‖ := fun t => by
    have := (hone t).trans (hlo t)
    by_contra hcon
    push Not at hcon
    nlinarith
  have hm0 : 0 ≤ m := by obtain ⟨z, -, rfl⟩ := hex; exact norm_nonneg z
  have hg : Tendsto (fun t : ℕ => ‖B ^ t‖ ^ (1 / t : ℝ)) atTop (𝓝 m) := by
    have h1 := spectrum.pow_norm_pow_one_div_tendsto_nhds_spectralRadius B
    rw [hB, spectralRadius_eq hm hex, ← hB] at h1
    have h2 := (ENNReal.tendsto_toReal ENNReal.ofReal_ne_top).comp h1
    rw [ENNReal.toReal_ofReal hm0] at h2
    refine h2.congr fun t => ?_
    exact ENNReal.toReal_ofReal (Real.rpow_nonneg (norm_nonneg _) _)
  have hm1 : 1 ≤ m := ge_of_tendsto' hg fun t => Real.one_le_rpow (hge t) (by positivity)
  refine ⟨hm1, ?_⟩
  have hl : Tendsto (fun t : ℕ => Real.log ‖B ^ t‖ / t) atTop (𝓝 (Real.log m)) := by
    refine ((Real.continuousAt_log (by linarith)).tendsto.comp hg).congr fun t => ?_
    change Real.log (‖B ^ t‖ ^ (1 / t : ℝ)) = _
    rw [Real.log_rpow (lt_of_lt_of_le one_pos (hge t))]
    ring
  have hu : Tendsto (fun t : ℕ => Real.log n / t + Real.log ‖B ^ t‖ / t) atTop
      (𝓝 (Real.log m)) := by
    have := (tendsto_const_div_atTop_nhds_zero_nat (Real.log n)).add hl
    rwa [zero_add] at this
  refine tendsto_of_tendsto_of_tendsto_of_le_of_le hl hu (fun t => ?_) fun t => ?_
  · exact div_le_div_of_nonneg_right (Real.log_le_log (lt_of_lt_of_le one_pos (hge t)) (hup t))
      (Nat.cast_nonneg t)
  · change _ ≤ Real.log n / t + Real.log ‖B ^ t‖ / t
    rw [← add_div, ← Real.log_mul hn.ne' (lt_of_lt_of_le one_pos (hge t)).ne']
    exact div_le_div_of_nonneg_right (Real.log_le_log (lt_of_lt_of_le hn (hone t)) (hlo t))
      (Nat.cast_nonneg t)

/-! ## Counting paths -/

/-- The matrix with a one for every possible transition. -/
noncomputable def edgeMatrix (P : Fin n → Fin n → ℝ) : Matrix (Fin n) (Fin n) ℝ := fun i j =>
  if Edge P i j then 1 else 0

theorem rowSum_succ (B : Matrix (Fin n) (Fin n) ℝ) (t : ℕ) (i : Fin n) :
    ∑ j, (B ^ (t + 1)) i j = ∑ k, B i k * ∑ j, (B ^ t) k j := by
  have e : ∀ j, (B ^ (t + 1)) i j = ∑ k, B i k * (B ^ t) k j := fun j => by
    rw [pow_succ', Matrix.mul_apply]
  simp only [e, Finset.mul_sum]
  exact Finset.sum_comm

theorem card_walks_from (P : Fin n → Fin n → ℝ) (t : ℕ) (i : Fin n) :
    (((walks P t).filter fun w => w 0 = i).card : ℝ) = ∑ j, (edgeMatrix P ^ t) i j := by
  induction t generalizing i with
  | zero =>
    have h1 : (walks P 0).filter (fun w => w 0 = i) = {fun _ => i} := by
      ext w
      simp only [walks, mem_filter, mem_univ, true_and, mem_singleton]
      constructor
      · rintro ⟨-, h⟩
        funext k
        rw [← h]
        exact congrArg w (Subsingleton.elim (α := Fin 1) _ _)
      · rintro rfl
        exact ⟨fun k => k.elim0, rfl⟩
    rw [h1, card_singleton, pow_zero]
    simp [Matrix.one_apply]
  | succ t ih =>
    rw [rowSum_succ]
    have h1 : ((walks P (t + 1)).filter fun w => w 0 = i).card
        = ((walks P t).filter fun w => Edge P i (w 0)).card := by
      refine Finset.card_nbij' (fun w => Fin.tail w) (fun w => Fin.cons i w) ?_ ?_ ?_ ?_
      · intro w hw
        have hw := Finset.mem_filter.1 (Finset.mem_coe.1 hw)
        have h2 := (Finset.mem_filter.1 hw.1).2
        refine Finset.mem_coe.2 (Finset.mem_filter.2
          ⟨Finset.mem_filter.2 ⟨mem_univ _, fun k => ?_⟩, ?_⟩)
        · exact h2 k.succ
        · have h3 := h2 0
          rw [← hw.2]
          exact h3
      · intro w hw
        have hw := Finset.mem_filter.1 (Finset.mem_coe.1 hw)
        have h2 := (Finset.mem_filter.1 hw.1).2
        refine Finset.mem_coe.2 (Finset.mem_filter.2
          ⟨Finset.mem_filter.2 ⟨mem_univ _, fun k => ?_⟩, rfl⟩)
        refine Fin.cases ?_ (fun k => ?_) k
        · exact hw.2
        · exact h2 k
      · intro w hw
        have hw := Finset.mem_filter.1 (Finset.mem_coe.1 hw)
        change Fin.cons i (Fin.tail w) = w
        rw [← hw.2]
        exact Fin.cons_self_tail w
      · intro w _
        exact Fin.tail_cons (α := fun _ => Fin n) i w
    have h2 : ((walks P t).filter fun w => Edge P i (w 0)).card
        = ∑ k, (((walks P t).filter fun w => Edge P i (w 0)).filter fun w => w 0 = k).card :=
      Finset.card_eq_sum_card_fiberwise (f := fun w : Fin (t + 1) → Fin n => w 0)
        (t := Finset.univ) fun w _ => Finset.mem_coe.2 (mem_univ _)
    rw [h1, h2]
    push_cast
    refine Finset.sum_congr rfl fun k _ => ?_
    unfold edgeMatrix
    by_cases he : Edge P i k
    · rw [if_pos he, one_mul]
      refine Eq.trans ?_ (ih k)
      congr 2
      ext w
      simp only [mem_filter]
      constructor
      · rintro ⟨⟨h3, -⟩, h4⟩; exact ⟨h3, h4⟩
      · rintro ⟨h3, h4⟩; exact ⟨⟨h3, by rw [h4]; exact he⟩, h4⟩
    · rw [if_neg he, zero_mul, Nat.cast_eq_zero, Finset.card_eq_zero]
      ext w
      simp only [mem_filter, notMem_empty, iff_false]
      rintro ⟨⟨-, h3⟩, h4⟩
      rw [h4] at h3
      exact he h3

theorem card_walks (P : Fin n → Fin n → ℝ) (t : ℕ) :
    ((walks P t).card : ℝ) = total (edgeMatrix P ^ t) := by
  unfold total
  rw [Finset.card_eq_sum_card_fiberwise (f := fun w : Fin (t + 1) → Fin n => w 0)
    (t := Finset.univ) fun w _ => Finset.mem_coe.2 (mem_univ _)]
  push_cast
  exact Finset.sum_congr rfl fun i _ => card_walks_from P t i

theorem edgeMatrix_nonneg (P : Fin n → Fin n → ℝ) (i j : Fin n) : 0 ≤ edgeMatrix P i j := by
  unfold edgeMatrix; split <;> norm_num

/-- If every state can be left, there is a path of every length from every state. -/
theorem rowSum_ge_one {P : Fin n → Fin n → ℝ} (hs : ∀ i, ∃ j, Edge P i j) (t : ℕ) (i : Fin n) :
    1 ≤ ∑ j, (edgeMatrix P ^ t) i j := by
  induction t generalizing i with
  | zero => rw [pow_zero]; simp [Matrix.one_apply]
  | succ t ih =>
    rw [rowSum_succ]
    obtain ⟨k, hk⟩ := hs i
    refine le_trans ?_ (Finset.single_le_sum
      (f := fun k => edgeMatrix P i k * ∑ j, (edgeMatrix P ^ t) k j)
      (fun k _ => mul_nonneg (edgeMatrix_nonneg P i k) (zero_le_one.trans (ih k))) (mem_univ k))
    change 1 ≤ edgeMatrix P i k * _
    unfold edgeMatrix at *
    rw [if_pos hk, one_mul]
    exact ih k

theorem rowSum_le (P : Fin n → Fin n → ℝ) (t : ℕ) (i : Fin n) :
    ∑ j, (edgeMatrix P ^ t) i j ≤ (n : ℝ) ^ t := by
  induction t generalizing i with
  | zero => rw [pow_zero]; simp [Matrix.one_apply]
  | succ t ih =>
    rw [rowSum_succ]
    have h1 : ∀ k ∈ univ, edgeMatrix P i k * ∑ j, (edgeMatrix P ^ t) k j ≤ (n : ℝ) ^ t := by
      intro k _
      refine le_trans (mul_le_mul_of_nonneg_left (ih k) (edgeMatrix_nonneg P i k)) ?_
      unfold edgeMatrix
      split
      · rw [one_mul]
      · rw [zero_mul]; positivity
    refine (Finset.sum_le_sum h1).trans ?_
    rw [Finset.sum_const, Finset.card_univ, Fintype.card_fin, nsmul_eq_mul, pow_succ']

end Verif
