import Verif.Spec.Passage
import Verif.Lemmas.Harmonic
import Mathlib.Analysis.Complex.Basic
import Mathlib.Analysis.Complex.Polynomial.Basic
import Mathlib.LinearAlgebra.Matrix.Charpoly.Eigs
import Mathlib.LinearAlgebra.Eigenspace.Matrix
import Mathlib.GroupTheory.OrderOfElement
import Mathlib.Tactic.LinearCombination

/-!
# Eigenvalues of ergodic chains

All eigenvalues have modulus at most one; for an ergodic chain one is the only eigenvalue of modulus
one, and it is a simple root of the characteristic polynomial.
-/

namespace Verif

open Finset

/-- Equality in the triangle inequality: a mean of vectors of length at most `M` has length `M` only
if all vectors of positive weight agree. -/
theorem mean_extreme {ι : Type*} [Fintype ι] {a : ι → ℝ} (ha : ∀ j, 0 ≤ a j) (hs : ∑ j, a j = 1)
    {v : ι → ℂ} {w : ℂ} (hv : ∀ j, ‖v j‖ ≤ ‖w‖) (h : ∑ j, (a j : ℂ) * v j = w) {j : ι}
    (hj : 0 < a j) : v j = w := by
  have hre : ∀ k, (v k * (starRingEnd ℂ) w).re ≤ ‖w‖ ^ 2 := by
    intro k
    refine (Complex.re_le_norm _).trans ?_
    rw [norm_mul, Complex.norm_conj, sq]
    exact mul_le_mul_of_nonneg_right (hv k) (norm_nonneg w)
  have hsum : ∑ k, a k * (‖w‖ ^ 2 - (v k * (starRingEnd ℂ) w).re) = 0 := by
    have h1 : ∑ k, a k * (v k * (starRingEnd ℂ) w).re = ‖w‖ ^ 2 := by
      have h2 := congrArg (fun z => (z * (starRingEnd ℂ) w).re) h
      simp only [Complex.mul_conj, Finset.sum_mul, Complex.re_sum, Complex.ofReal_re,
        Complex.normSq_eq_norm_sq] at h2
      rw [← h2]
      refine Finset.sum_congr rfl fun k _ => ?_
      rw [mul_assoc, Complex.re_ofReal_mul]
    simp only [mul_sub, Finset.sum_sub_distrib, ← Finset.sum_mul]
    rw [hs, h1, one_mul, sub_self]
  have h0 := (Finset.sum_eq_zero_iff_of_nonneg fun k _ =>
    mul_nonneg (ha k) (sub_nonneg.2 (hre k))).1 hsum j (mem_univ j)
  have h1 : (v j * (starRingEnd ℂ) w).re = ‖w‖ ^ 2 := by
    rcases mul_eq_zero.1 h0 with h2 | h2
    · exact absurd h2 hj.ne'
    · linarith
  have h2 : Complex.normSq (v j - w) ≤ 0 := by
    rw [Complex.normSq_sub, h1, Complex.normSq_eq_norm_sq, Complex.normSq_eq_norm_sq]
    have : ‖v j‖ ^ 2 ≤ ‖w‖ ^ 2 := pow_le_pow_left₀ (norm_nonneg _) (hv j) 2
    linarith
  have h3 := Complex.normSq_eq_zero.1 (le_antisymm h2 (Complex.normSq_nonneg _))
  exact sub_eq_zero.1 h3

variable {n : ℕ} {P : Matrix (Fin n) (Fin n) ℝ}

/-- All eigenvalues have modulus at most one. -/
theorem eigen_norm_le (hP : IsStochastic fun i j => P i j) {z : ℂ} {v : Fin n → ℂ} (hv : v ≠ 0)
    (h : ∀ i, ∑ j, (P i j : ℂ) * v j = z * v i) : ‖z‖ ≤ 1 := by
  have hne : ∃ i, v i ≠ 0 := Function.ne_iff.1 hv
  obtain ⟨i0, hi0⟩ := hne
  have : Nonempty (Fin n) := ⟨i0⟩
  obtain ⟨m, hm⟩ := Finite.exists_max fun i => ‖v i‖
  have hpos : 0 < ‖v m‖ := lt_of_lt_of_le (norm_pos_iff.2 hi0) (hm i0)
  have h1 : ‖z‖ * ‖v m‖ ≤ 1 * ‖v m‖ := by
    rw [← norm_mul, ← h m, ← hP.2 m, Finset.sum_mul]
    refine (norm_sum_le _ _).trans (Finset.sum_le_sum fun j _ => ?_)
    rw [norm_mul, Complex.norm_of_nonneg (hP.1 m j)]
    exact mul_le_mul_of_nonneg_left (hm j) (hP.1 m j)
  exact le_of_mul_le_mul_right h1 hpos

/-- An eigenvector of an eigenvalue of modulus one is multiplied by the eigenvalue along each edge of
an irreducible chain. -/
theorem eigen_edge (hP : IsStochastic fun i j => P i j) (hirr : Irreducible fun i j => P i j) {z : ℂ}
    {v : Fin n → ℂ} (h : ∀ i, ∑ j, (P i j : ℂ) * v j = z * v i) (hz : ‖z‖ = 1) {i j : Fin n}
    (hij : Edge (fun i j => P i j) i j) : v j = z * v i := by
  have : Nonempty (Fin n) := ⟨i⟩
  obtain ⟨m, hm⟩ := Finite.exists_max fun i => ‖v i‖
  have hstep : ∀ a, ‖v a‖ = ‖v m‖ → ∀ b, Edge (fun i j => P i j) a b → v b = z * v a := by
    intro a ha b hab
    refine mean_extreme (a := fun b => P a b) (fun k => hP.1 a k) (hP.2 a) (fun k => ?_) (h a) hab
    rw [norm_mul, hz, one_mul, ha]
    exact hm k
  have hall : ∀ a, Reach (fun i j => P i j) m a → ‖v a‖ = ‖v m‖ := by
    intro a ha
    induction ha with
    | refl => rfl
    | tail _ e ih => rw [hstep _ ih _ e, norm_mul, hz, one_mul, ih]
  exact hstep i (hall i (hirr m i)) j hij

/-- One is the only eigenvalue of modulus one of an ergodic chain. -/
theorem eigen_eq_one (hP : IsStochastic fun i j => P i j) (he : Ergodic fun i j => P i j) {z : ℂ}
    {v : Fin n → ℂ} (hv : v ≠ 0) (h : ∀ i, ∑ j, (P i j : ℂ) * v j = z * v i) (hz : ‖z‖ = 1) :
    z = 1 := by
  obtain ⟨i, hi⟩ := Function.ne_iff.1 hv
  have hk : ∀ (k : ℕ) (a b : Fin n), ReachIn (fun i j => P i j) k a b → v b = z ^ k * v a := by
    intro k a b hab
    induction hab with
    | refl a => rw [pow_zero, one_mul]
    | step _ e ih => rw [eigen_edge hP he.1 h hz e, ih, pow_succ]; ring
  have hone : ∀ k, ReachIn (fun i j => P i j) k i i → orderOf z ∣ k := by
    intro k hik
    refine orderOf_dvd_of_pow_eq_one ?_
    have h1 := hk k i i hik
    have h2 : (z ^ k - 1) * v i = 0 := by linear_combination -h1
    exact sub_eq_zero.1 ((mul_eq_zero.1 h2).resolve_right hi)
  have h1 := (he.2 i).2 _ hone
  rw [← orderOf_eq_one_iff]
  exact Nat.dvd_one.1 h1

/-- The eigenvectors of a root of the characteristic polynomial. -/
theorem exists_eigenvector {z : ℂ} (hz : z ∈ (P.map (algebraMap ℝ ℂ)).charpoly.roots) :
    ∃ v : Fin n → ℂ, v ≠ 0 ∧ ∀ i, ∑ j, (P i j : ℂ) * v j = z * v i := by
  have h1 : (P.map (algebraMap ℝ ℂ)).charpoly.eval z = 0 := (Polynomial.mem_roots'.1 hz).2
  rw [Matrix.eval_charpoly] at h1
  obtain ⟨v, hv, h2⟩ := Matrix.exists_mulVec_eq_zero_iff.2 h1
  refine ⟨v, hv, fun i => ?_⟩
  have h3 := congrFun h2 i
  rw [Matrix.sub_mulVec] at h3
  have h4 : (Matrix.scalar (Fin n) z).mulVec v i = z * v i := by
    rw [Matrix.scalar_apply, Matrix.mulVec_diagonal]
  have h5 : (P.map (algebraMap ℝ ℂ)).mulVec v i = ∑ j, (P i j : ℂ) * v j := rfl
  rw [← h5]
  have h6 : (Matrix.scalar (Fin n) z).mulVec v i - (P.map (algebraMap ℝ ℂ)).mulVec v i = 0 := h3
  rw [← h4]
  exact (sub_eq_zero.1 h6).symm

/-- Only constant vectors are unchanged by an irreducible chain. -/
theorem harmonic_constant (hP : IsStochastic fun i j => P i j) (hirr : Irreducible fun i j => P i j)
    {v : Fin n → ℝ} (h : ∀ i, ∑ j, P i j * v j = v i) (i j : Fin n) : v i = v j := by
  have h1 := harmonic_unique (P := fun i j => P i j) hP (B := fun k => k = j)
    (fun k => ⟨j, rfl, hirr k j⟩) (b := fun _ => 0) (v := v) (w := fun _ => v j)
    (fun k hk => by rw [hk]) (fun k _ => by rw [zero_add]; exact (h k).symm)
    (fun k _ => by rw [zero_add, ← Finset.sum_mul, hP.2 k, one_mul])
  exact congrFun h1 i

open Polynomial in
/-- One is a simple root of the characteristic polynomial of an irreducible chain. -/
theorem rootMultiplicity_one (hP : IsStochastic fun i j => P i j)
    (hirr : Irreducible fun i j => P i j) {x : Fin n → ℝ} (hx : IsStationary (fun i j => P i j) x) :
    P.charpoly.rootMultiplicity 1 = 1 := by
  obtain ⟨J, hJ⟩ : ∃ J : Matrix (Fin n) (Fin n) ℝ, J = Matrix.vecMulVec (fun _ => 1) x := ⟨_, rfl⟩
  have hJe : ∀ i j, J i j = x j := by
    intro i j
    rw [hJ, Matrix.vecMulVec_apply, one_mul]
  have hn : 0 < n := by
    rcases Nat.eq_zero_or_pos n with rfl | h
    · have := hx.1.2
      simp at this
    · exact h
  have hPJ : P * J = J := by
    funext i j
    rw [Matrix.mul_apply, hJe]
    simp only [hJe]
    rw [← Finset.sum_mul, hP.2 i, one_mul]
  have hJJ : J * J = J := by
    funext i j
    rw [Matrix.mul_apply, hJe]
    simp only [hJe]
    rw [← Finset.sum_mul, hx.1.2, one_mul]
  obtain ⟨Q, hQ⟩ : ∃ Q, Q = P - J := ⟨_, rfl⟩
  have hQJ : Q * J = 0 := by rw [hQ, sub_mul, hPJ, hJJ, sub_self]
  -- the characteristic polynomials
  have hmul : Q.charpoly * J.charpoly = X ^ n * P.charpoly := by
    have h1 : Q.charmatrix * J.charmatrix = (Matrix.scalar (Fin n) X) * P.charmatrix := by
      unfold Matrix.charmatrix
      have h2 : (C.mapMatrix Q : Matrix (Fin n) (Fin n) ℝ[X]) * C.mapMatrix J = 0 := by
        rw [← map_mul, hQJ, map_zero]
      have h3 : (C.mapMatrix P : Matrix (Fin n) (Fin n) ℝ[X]) = C.mapMatrix Q + C.mapMatrix J := by
        rw [← map_add, hQ, sub_add_cancel]
      have h4 : (C.mapMatrix Q : Matrix (Fin n) (Fin n) ℝ[X]) * Matrix.scalar (Fin n) X
          = Matrix.scalar (Fin n) X * C.mapMatrix Q :=
        (Matrix.scalar_commute X (fun r => Commute.all X r) _).symm
      rw [h3, sub_mul, mul_sub, mul_sub, mul_sub, h2, sub_zero, h4, mul_add]
      abel
    unfold Matrix.charpoly
    rw [← Matrix.det_mul, h1, Matrix.det_mul, Matrix.scalar_apply, Matrix.det_diagonal]
    simp
  have hJc : J.charpoly = X ^ n - X ^ (n - 1) := by
    rw [hJ, Matrix.charpoly_vecMulVec]
    have : (fun _ : Fin n => (1 : ℝ)) ⬝ᵥ x = 1 := by
      simp only [dotProduct, one_mul]
      exact hx.1.2
    rw [this]
    simp
  have hJc' : J.charpoly = X ^ (n - 1) * (X - C 1) := by
    rw [hJc, C_1]
    obtain ⟨m, rfl⟩ : ∃ m, n = m + 1 := ⟨n - 1, by omega⟩
    rw [Nat.add_sub_cancel, pow_succ]
    ring
  -- one is not an eigenvalue of the difference
  have hQ1 : Q.charpoly.eval 1 ≠ 0 := by
    intro h0
    rw [Matrix.eval_charpoly] at h0
    obtain ⟨v, hv, h2⟩ := Matrix.exists_mulVec_eq_zero_iff.2 h0
    have h3 : ∀ i, ∑ j, P i j * v j - ∑ j, x j * v j = v i := by
      intro i
      have h4 : ((Matrix.scalar (Fin n) 1 : Matrix (Fin n) (Fin n) ℝ) - Q).mulVec v i = 0 :=
        congrFun h2 i
      rw [Matrix.sub_mulVec] at h4
      have h5 : (Matrix.scalar (Fin n) (1 : ℝ)).mulVec v i = v i := by
        rw [map_one, Matrix.one_mulVec]
      have h6 : Q.mulVec v i = ∑ j, P i j * v j - ∑ j, x j * v j := by
        rw [hQ, Matrix.sub_mulVec]
        have h7 : J.mulVec v i = ∑ j, J i j * v j := rfl
        have h8 : P.mulVec v i = ∑ j, P i j * v j := rfl
        change P.mulVec v i - J.mulVec v i = _
        rw [h7, h8]
        simp only [hJe]
      have h9 : (Matrix.scalar (Fin n) (1 : ℝ)).mulVec v i - Q.mulVec v i = 0 := h4
      rw [h5, h6] at h9
      linarith
    have hxv : ∑ j, x j * v j = 0 := by
      have h4 : ∑ i, x i * (∑ j, P i j * v j - ∑ j, x j * v j) = ∑ i, x i * v i :=
        Finset.sum_congr rfl fun i _ => by rw [h3 i]
      have h5 : ∑ i, x i * ∑ j, P i j * v j = ∑ j, x j * v j := by
        simp only [Finset.mul_sum]
        rw [Finset.sum_comm]
        refine Finset.sum_congr rfl fun j _ => ?_
        rw [← hx.2 j, Finset.sum_mul]
        exact Finset.sum_congr rfl fun i _ => by ring
      simp only [mul_sub, Finset.sum_sub_distrib] at h4
      rw [h5, ← Finset.sum_mul, hx.1.2] at h4
      linarith
    have h4 : ∀ i, ∑ j, P i j * v j = v i := fun i => by
      have := h3 i
      rw [hxv, sub_zero] at this
      exact this
    apply hv
    funext i
    have h5 : ∑ j, x j * v j = v i := by
      have : ∀ j, x j * v j = x j * v i := fun j => by rw [harmonic_constant hP hirr h4 j i]
      simp only [this]
      rw [← Finset.sum_mul, hx.1.2, one_mul]
    rw [← h5, hxv]
    rfl
  have hP0 : P.charpoly ≠ 0 := (Matrix.charpoly_monic P).ne_zero
  have hQ0 : Q.charpoly ≠ 0 := (Matrix.charpoly_monic Q).ne_zero
  have hX : (X : ℝ[X]) ≠ 0 := X_ne_zero
  have hX1 : ∀ m, ((X : ℝ[X]) ^ m).rootMultiplicity 1 = 0 := by
    intro m
    refine rootMultiplicity_eq_zero ?_
    simp [IsRoot]
  have h1 := congrArg (rootMultiplicity 1) hmul
  rw [hJc', rootMultiplicity_mul (mul_ne_zero hQ0 (mul_ne_zero (pow_ne_zero _ hX) (X_sub_C_ne_zero 1))),
    rootMultiplicity_mul (mul_ne_zero (pow_ne_zero _ hX) (X_sub_C_ne_zero 1)),
    rootMultiplicity_mul (mul_ne_zero (pow_ne_zero _ hX) hP0), hX1, hX1,
    rootMultiplicity_X_sub_C_self, rootMultiplicity_eq_zero hQ1] at h1
  omega

/-- One is a simple root also among the complex roots. -/
theorem count_one (hP : IsStochastic fun i j => P i j) (hirr : Irreducible fun i j => P i j)
    {x : Fin n → ℝ} (hx : IsStationary (fun i j => P i j) x) :
    (P.map (algebraMap ℝ ℂ)).charpoly.roots.count 1 = 1 := by
  rw [Polynomial.count_roots, Matrix.charpoly_map]
  have h1 := Polynomial.eq_rootMultiplicity_map (p := P.charpoly)
    (RingHom.injective (algebraMap ℝ ℂ)) 1
  rw [map_one] at h1
  rw [← h1, rootMultiplicity_one hP hirr hx]

theorem card_roots : (P.map (algebraMap ℝ ℂ)).charpoly.roots.card = n := by
  rw [IsAlgClosed.card_roots_eq_natDegree, Matrix.charpoly_natDegree_eq_dim, Fintype.card_fin]

end Verif
