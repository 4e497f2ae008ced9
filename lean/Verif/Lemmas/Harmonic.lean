import Verif.Lemmas.Chain
import Verif.Model.Derived
import Mathlib.LinearAlgebra.Matrix.ToLinearEquiv
import Mathlib.Data.Fintype.Lattice

/-!
Superharmonic functions of a finite chain, and systems of linear equations with a block of the
transition matrix. The uniqueness of all hitting quantities comes from `min_principle`.
-/

set_option linter.unusedSectionVars false

namespace Verif

open Finset

section Generic

variable {K : Type*} [Field K] [LinearOrder K] [IsStrictOrderedRing K]
variable {ι : Type*} [Fintype ι]

/-- A function that is superharmonic outside `B` and nonnegative on `B` is nonnegative, if `B` can
be reached from everywhere. -/
theorem min_principle {P : ι → ι → K} (hP : IsStochastic P) {B : ι → Prop}
    (hB : ∀ i, ∃ b, B b ∧ Reach P i b) {v : ι → K} (hv : ∀ i, B i → 0 ≤ v i)
    (hs : ∀ i, ¬ B i → ∑ j, P i j * v j ≤ v i) (i : ι) : 0 ≤ v i := by
  have : Nonempty ι := ⟨i⟩
  obtain ⟨m, hm⟩ := Finite.exists_min v
  by_contra hneg
  have hm0 : v m < 0 := lt_of_le_of_lt (hm i) (not_le.1 hneg)
  have hcl : ClosedSet P fun k => v k = v m := by
    intro k l hk hkl
    have hkB : ¬ B k := fun h => by have := hv k h; rw [hk] at this; exact absurd this (not_le.2 hm0)
    have h1 := hs k hkB
    have h2 : ∑ j, P k j * (v j - v m) ≤ 0 := by
      simp only [mul_sub, Finset.sum_sub_distrib, ← Finset.sum_mul, hP.2 k, one_mul]
      rw [hk] at h1
      linarith
    have h3 : ∀ j ∈ (univ : Finset ι), 0 ≤ P k j * (v j - v m) := fun j _ =>
      mul_nonneg (hP.1 k j) (by linarith [hm j])
    have h4 := (Finset.sum_eq_zero_iff_of_nonneg h3).1 (le_antisymm h2 (Finset.sum_nonneg h3)) l
      (mem_univ l)
    rcases mul_eq_zero.1 h4 with h | h
    · exact absurd h (ne_of_gt hkl)
    · linarith
  obtain ⟨b, hb, hr⟩ := hB m
  have := closedSet_reach hcl rfl hr
  have h5 := hv b hb
  rw [this] at h5
  exact absurd h5 (not_le.2 hm0)

/-- Two functions that satisfy the same equations outside `B` and agree on `B` are equal. -/
theorem harmonic_unique {P : ι → ι → K} (hP : IsStochastic P) {B : ι → Prop}
    (hB : ∀ i, ∃ b, B b ∧ Reach P i b) {b v w : ι → K} (hvw : ∀ i, B i → v i = w i)
    (hv : ∀ i, ¬ B i → v i = b i + ∑ j, P i j * v j)
    (hw : ∀ i, ¬ B i → w i = b i + ∑ j, P i j * w j) : v = w := by
  have key : ∀ v w : ι → K, (∀ i, B i → v i = w i) →
      (∀ i, ¬ B i → v i = b i + ∑ j, P i j * v j) →
      (∀ i, ¬ B i → w i = b i + ∑ j, P i j * w j) → ∀ i, w i ≤ v i := by
    intro v w hvw hv hw i
    have := min_principle hP hB (v := fun i => v i - w i) (fun i hi => by rw [hvw i hi, sub_self])
      (fun i hi => by
        simp only [mul_sub, Finset.sum_sub_distrib]
        rw [hv i hi, hw i hi]
        linarith) i
    linarith
  funext i
  exact le_antisymm (key w v (fun i hi => (hvw i hi).symm) hw hv i) (key v w hvw hv hw i)

end Generic

variable {K : Type} [Field K] [LinearOrder K] [IsStrictOrderedRing K]

/-- A vector over a list of states, extended by zero. -/
def extend {n : ℕ} (idx : List (Fin n)) (x : Fin idx.length → K) : Fin n → K := fun i =>
  if h : i ∈ idx then x ⟨idx.idxOf i, List.idxOf_lt_length_iff.2 h⟩ else 0

theorem extend_get {n : ℕ} {idx : List (Fin n)} (hn : idx.Nodup) (x : Fin idx.length → K)
    (a : Fin idx.length) : extend idx x (idx.get a) = x a := by
  unfold extend
  rw [dif_pos (List.get_mem idx a)]
  congr 1
  exact Fin.ext (List.Nodup.idxOf_getElem hn a.1 a.2)

theorem extend_notMem {n : ℕ} {idx : List (Fin n)} (x : Fin idx.length → K) {i : Fin n}
    (h : i ∉ idx) : extend idx x i = 0 := dif_neg h

theorem sum_extend {n : ℕ} {idx : List (Fin n)} (hn : idx.Nodup) (x : Fin idx.length → K)
    (f : Fin n → K) : ∑ j, f j * extend idx x j = ∑ a, f (idx.get a) * x a := by
  have h1 : ∑ j, f j * extend idx x j = ∑ j ∈ idx.toFinset, f j * extend idx x j := by
    symm
    apply Finset.sum_subset (Finset.subset_univ _)
    intro j _ hj
    rw [extend_notMem x (by simpa using hj), mul_zero]
  rw [h1]
  symm
  refine Finset.sum_bij (fun a _ => idx.get a) (fun a _ => by simp)
    (fun a _ b _ h => (List.Nodup.injective_get hn) h) ?_ ?_
  · intro j hj
    obtain ⟨a, ha⟩ := List.get_of_mem (List.mem_toFinset.1 hj)
    exact ⟨a, mem_univ _, ha⟩
  · intro a _
    rw [extend_get hn]

/-- Every state of the list can leave the list. -/
def Escapes {n : ℕ} (P : Matrix (Fin n) (Fin n) K) (idx : List (Fin n)) : Prop :=
  ∀ i, ∃ b, b ∉ idx ∧ Reach (fun i j => P i j) i b

/-- The system with a block that every state can leave: nonnegative right sides have nonnegative
solutions. -/
theorem sub_nonneg_solution {n : ℕ} {P : Matrix (Fin n) (Fin n) K}
    (hP : IsStochastic fun i j => P i j) {idx : List (Fin n)} (hn : idx.Nodup)
    (he : Escapes P idx) {x : Fin idx.length → K}
    (hx : ∀ a, 0 ≤ ((1 - subMatrix P idx).mulVec x) a) (a : Fin idx.length) : 0 ≤ x a := by
  have := min_principle hP (B := fun i => i ∉ idx) he (v := extend idx x)
    (fun i hi => le_of_eq (extend_notMem x hi).symm)
    (fun i hi => by
      obtain ⟨a, rfl⟩ := List.get_of_mem (not_not.1 hi)
      rw [sum_extend hn, extend_get hn]
      have h1 := hx a
      rw [Matrix.sub_mulVec, Matrix.one_mulVec, Pi.sub_apply] at h1
      have h2 : (subMatrix P idx).mulVec x a = ∑ b, P (idx.get a) (idx.get b) * x b := rfl
      rw [h2] at h1
      linarith) (idx.get a)
  rwa [extend_get hn] at this

theorem sub_det_ne_zero {n : ℕ} {P : Matrix (Fin n) (Fin n) K}
    (hP : IsStochastic fun i j => P i j) {idx : List (Fin n)} (hn : idx.Nodup)
    (he : Escapes P idx) : (1 - subMatrix P idx).det ≠ 0 := by
  intro h
  obtain ⟨x, hx, h0⟩ := Matrix.exists_mulVec_eq_zero_iff.2 h
  apply hx
  funext a
  apply le_antisymm
  · have h1 := sub_nonneg_solution hP hn he (x := -x) (fun b => by
      rw [Matrix.mulVec_neg, h0, neg_zero]; exact le_rfl) a
    simpa using h1
  · exact sub_nonneg_solution hP hn he (fun b => by rw [h0]; exact le_rfl) a

end Verif
