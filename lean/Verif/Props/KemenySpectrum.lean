import Verif.Props.Absorption
import Mathlib.LinearAlgebra.Matrix.Charpoly.Coeff
import Mathlib.LinearAlgebra.Matrix.Block
import Mathlib.Analysis.Complex.Polynomial.Basic

/-!
# C160: the Kemeny constant and the eigenvalues of the chain

`kemeny_constant` (`markov_chain.py:773-789`) is the trace of the fundamental matrix of an absorbing
chain. Here it is computed from the spectrum: the sum of `1 / (1 - λ)` over the eigenvalues of the
transition matrix other than one, counted with multiplicity.
-/

namespace Verif

open Finset Polynomial

set_option linter.unusedSectionVars false

/-- The trace of the inverse of `1 - Q` is the logarithmic derivative at one of the
characteristic polynomial of `Q`. -/
theorem derivative_charpoly_one {m : ℕ} {F : Type*} [Field F] {Q N : Matrix (Fin m) (Fin m) F}
    (h : (1 - Q) * N = 1) :
    (derivative Q.charpoly).eval 1 = Q.charpoly.eval 1 * N.trace := by
  have h1 : Q.charpoly.comp (X + C 1) =
      C (1 - Q).det * (1 + (X : F[X]) • N.map C).det := by
    have h2 : (1 - Q).map C * (1 + (X : F[X]) • N.map C) =
        (X + C 1 : F[X]) • (1 : Matrix (Fin m) (Fin m) F[X]) - Q.map C := by
      have h3 : (1 - Q).map C * N.map C = (1 : Matrix (Fin m) (Fin m) F[X]) := by
        rw [← Matrix.map_mul, h]
        exact Matrix.map_one C C_0 C_1
      have h4 : (1 - Q).map C = (1 : Matrix (Fin m) (Fin m) F[X]) - Q.map C := by
        ext i j
        by_cases hij : i = j
        · subst hij; simp
        · simp [hij]
      rw [mul_add, mul_one, Matrix.mul_smul, h3, h4, add_smul, C_1, one_smul]
      abel
    have h5 : C (1 - Q).det = ((1 - Q).map C).det := RingHom.map_det C (1 - Q)
    rw [h5, ← Matrix.det_mul, h2, Matrix.charpoly, ← coe_compRingHom_apply, RingHom.map_det]
    congr 1
    ext i j : 2
    by_cases hij : i = j
    · subst hij
      simp [Matrix.charmatrix]
    · simp [Matrix.charmatrix, hij]
  have h6 := congrArg (fun p => (derivative p).eval 0) h1
  have h7 := congrArg (fun p => p.eval 0) h1
  simp only [derivative_comp, derivative_mul, derivative_C, zero_mul, zero_add, eval_mul, eval_C,
    Matrix.derivative_det_one_add_X_smul, eval_comp, eval_add, eval_X, derivative_add,
    derivative_X, add_zero, one_mul] at h6 h7
  have h8 : (1 + (X : F[X]) • N.map C).det.eval 0 = 1 := by
    rw [Matrix.det_one_add_X_smul]
    simp
  rw [h6, h7, h8, mul_one]

/-- The determinant of a matrix that is triangular with respect to a list of states and whose
other diagonal block is a multiple of the identity. -/
theorem det_block_list {n : ℕ} {R : Type*} [CommRing R] (M : Matrix (Fin n) (Fin n) R)
    {T : List (Fin n)} (hT : T.Nodup) (r : R)
    (h : ∀ i, i ∉ T → ∀ j, M i j = if i = j then r else 0) :
    ∃ a : ℕ, M.det = (M.submatrix T.get T.get).det * r ^ a := by
  refine ⟨Fintype.card {i // i ∉ T}, ?_⟩
  rw [Matrix.twoBlockTriangular_det M (· ∈ T) fun i hi j hj => by
    rw [h i hi j, if_neg fun (e : i = j) => hi (e ▸ hj)]]
  congr 1
  · have h1 : M.submatrix T.get T.get = (M.toSquareBlockProp (· ∈ T)).submatrix
        (List.Nodup.getEquiv T hT) (List.Nodup.getEquiv T hT) := Matrix.ext fun i j => rfl
    rw [h1]
    symm
    convert! Matrix.det_submatrix_equiv_self (List.Nodup.getEquiv T hT)
      (M.toSquareBlockProp (· ∈ T))
  · have hd : M.toSquareBlockProp (· ∉ T) = Matrix.diagonal fun _ => r := by
      refine Matrix.ext fun i j => (h i.1 i.2 j.1).trans ?_
      by_cases hij : i = j
      · rw [hij, if_pos rfl, Matrix.diagonal_apply_eq]
      · rw [if_neg fun e => hij (Subtype.ext e), Matrix.diagonal_apply_ne _ hij]
    rw [hd, Matrix.det_diagonal, Finset.prod_const, Finset.card_univ]

/-- The characteristic polynomial of an absorbing chain: that of the transient block, times
`X - 1` for every absorbing state. -/
theorem charpoly_absorbing {c : MC ℝ} (hc : c.Valid) {sccs : List (List (Fin c.n))}
    (h : IsClasses c.p sccs) (ha : AbsorbingChain c.p) :
    ∃ a : ℕ, c.p.charpoly =
      (subMatrix c.p (transientStatesIdx c.p sccs)).charpoly * (X - C 1) ^ a := by
  have hmem := mem_transientStatesIdx h
  have habs : ∀ i, i ∉ transientStatesIdx c.p sccs → AbsorbingState c.p i := fun i hi =>
    absorbing_of_recurrent hc ha (by
      by_contra hr
      exact hi ((hmem i).2 hr))
  obtain ⟨a, h1⟩ := det_block_list (Matrix.charmatrix c.p) (transient_nodup h) (X - C 1)
    fun i hi j => by
      have h2 := absorbing_row hc (habs i hi) j
      by_cases hij : i = j
      · rw [if_pos hij] at h2 ⊢
        rw [← hij] at h2 ⊢
        rw [Matrix.charmatrix_apply_eq, h2]
      · rw [if_neg hij] at h2 ⊢
        rw [Matrix.charmatrix_apply_ne _ _ _ hij, h2, C_0, neg_zero]
  refine ⟨a, h1.trans ?_⟩
  congr 1
  rw [Matrix.charpoly]
  congr 1
  refine Matrix.ext fun i j => ?_
  by_cases hij : i = j
  · rw [hij, Matrix.charmatrix_apply_eq, Matrix.submatrix_apply, Matrix.charmatrix_apply_eq]
    rfl
  · rw [Matrix.charmatrix_apply_ne _ _ _ hij, Matrix.submatrix_apply]
    exact Matrix.charmatrix_apply_ne _ _ _ fun e => hij ((transient_nodup h).get_inj_iff.1 e)

/-- The eigenvalues of the transition matrix, counted with multiplicity. -/
noncomputable def spectrumOf {n : ℕ} (P : Matrix (Fin n) (Fin n) ℝ) : Multiset ℂ :=
  (P.charpoly.map Complex.ofRealHom).roots

open scoped Classical in
/-- C160. `kemeny_constant` of an absorbing chain is the sum of `1 / (1 - λ)` over the eigenvalues
of its transition matrix other than one, counted with multiplicity. There are as many of these as
transient states. -/
theorem C160_kemeny_spectrum {c : MC ℝ} (hc : c.Valid) {sccs : List (List (Fin c.n))}
    (h : IsClasses c.p sccs) (ha : AbsorbingChain c.p) (ht : ∃ i, TransientState c.p i) :
    ∃ k, kemenyConstant c sccs = .ok (some k) ∧
      (k : ℂ) = (((spectrumOf c.p).filter (· ≠ 1)).map fun z => 1 / (1 - z)).sum ∧
      ((spectrumOf c.p).filter (· ≠ 1)).card = (transientStates c sccs).length := by
  obtain ⟨N, h1, h2, -, -⟩ := fundamentalMatrix_spec hc h ha ht
  obtain ⟨a, hcp⟩ := charpoly_absorbing hc h ha
  obtain ⟨Q, hQ⟩ : ∃ Q, Q = subMatrix c.p (transientStatesIdx c.p sccs) := ⟨_, rfl⟩
  rw [← hQ] at h2 hcp
  obtain ⟨q, hq⟩ : ∃ q, q = Q.charpoly.map Complex.ofRealHom := ⟨_, rfl⟩
  have hmonic : q.Monic := hq ▸ (Matrix.charpoly_monic Q).map _
  have hdet : Q.charpoly.eval 1 ≠ 0 := by
    have h3 := congrArg Matrix.det h2
    rw [Matrix.det_mul, Matrix.det_one] at h3
    have h4 : Q.charpoly.eval 1 = (1 - Q).det := by
      rw [Matrix.eval_charpoly]
      simp
    rw [h4]
    intro h5
    rw [h5, zero_mul] at h3
    exact zero_ne_one h3
  have hev : q.eval 1 = ((Q.charpoly.eval 1 : ℝ) : ℂ) := by
    rw [hq]
    simp
  have hne : q.eval 1 ≠ 0 := by
    rw [hev]
    exact_mod_cast hdet
  have hsplit : q.Splits := IsAlgClosed.splits q
  have hder : (derivative q).eval 1 = q.eval 1 * ((∑ i, N i i : ℝ) : ℂ) := by
    have h5 := derivative_charpoly_one h2
    have h6 : (derivative q).eval 1 = (((derivative Q.charpoly).eval 1 : ℝ) : ℂ) := by
      rw [hq, derivative_map]
      simp
    rw [h6, h5, hev]
    push_cast
    simp [Matrix.trace]
  have hspec : (spectrumOf c.p).filter (· ≠ 1) = q.roots := by
    have h7 : c.p.charpoly.map Complex.ofRealHom = q * (X - C 1) ^ a := by
      rw [hcp, Polynomial.map_mul, ← hq]
      simp
    have h8 : q * (X - C (1 : ℂ)) ^ a ≠ 0 :=
      mul_ne_zero hmonic.ne_zero (pow_ne_zero _ (X_sub_C_ne_zero 1))
    rw [spectrumOf, h7, roots_mul h8, roots_pow, roots_X_sub_C, Multiset.filter_add]
    have h9 : Multiset.filter (· ≠ (1 : ℂ)) q.roots = q.roots :=
      Multiset.filter_eq_self.2 fun z hz e => hne (by
        rw [← e]
        exact (mem_roots'.1 hz).2)
    have h10 : Multiset.filter (· ≠ (1 : ℂ)) (a • {1}) = 0 :=
      Multiset.filter_eq_nil.2 fun z hz => by
        have := Multiset.mem_of_mem_nsmul hz
        simpa using this
    rw [h9, h10, add_zero]
  refine ⟨∑ i, N i i, ?_, ?_, ?_⟩
  · unfold kemenyConstant
    rw [h1]
    rfl
  · rw [hspec, ← hsplit.eval_derivative_div_eval_of_ne_zero hne, hder, mul_div_cancel_left₀ _ hne]
  · rw [hspec, ← hsplit.natDegree_eq_card_roots, hq, (Matrix.charpoly_monic Q).natDegree_map,
      Matrix.charpoly_natDegree_eq_dim, Fintype.card_fin]
    simp [transientStates]

/-- The middle state of the drunkard's walk on three sites is left at once: its only eigenvalue
other than one is zero, and the Kemeny constant is one. -/
example : ∃ k, kemenyConstant exDrunkard.toReal ([[0], [1], [2]] : List (List (Fin 3))) =
    .ok (some k) ∧ (open scoped Classical in
      (k : ℂ) = (((spectrumOf exDrunkard.toReal.p).filter (· ≠ 1)).map fun z => 1 / (1 - z)).sum) := by
  obtain ⟨h1, h2, h3, h4, -⟩ := exDrunkard_meets
  obtain ⟨k, h5, h6, -⟩ := C160_kemeny_spectrum h1 h2 h3 h4
  exact ⟨k, h5, h6⟩

end Verif
