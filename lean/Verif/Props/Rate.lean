import Verif.Props.Spectral
import Verif.Props.Mixing
import Verif.Spec.Rate
import Mathlib.Analysis.Matrix.Normed
import Mathlib.Analysis.Normed.Algebra.GelfandFormula
import Mathlib.Analysis.CStarAlgebra.Matrix
import Mathlib.Analysis.CStarAlgebra.Spectrum

/-!
# C129: the speed of convergence to the stationary distribution
-/

set_option linter.unusedSectionVars false

namespace Verif

open Finset Filter Topology

variable {n : ℕ} {P : Matrix (Fin n) (Fin n) ℝ} {x : Fin n → ℝ}

/-- The matrix minus the matrix with the stationary distribution in all rows. -/
def deviation (P : Matrix (Fin n) (Fin n) ℝ) (x : Fin n → ℝ) : Matrix (Fin n) (Fin n) ℝ :=
  fun i j => P i j - x j

theorem deviation_pow (hP : IsStochastic fun i j => P i j) (hx : IsStationary (fun i j => P i j) x)
    (t : ℕ) : deviation P x ^ (t + 1) = deviation (P ^ (t + 1)) x := by
  induction t with
  | zero => rw [zero_add, pow_one, pow_one]
  | succ t ih =>
    rw [pow_succ, ih, pow_succ P (t + 1)]
    funext i j
    have h1 : ∑ k, (P ^ (t + 1)) i k = 1 := (IsStochastic.pow (P := P) hP (t + 1)).2 i
    have h2 : ∑ k, x k * P k j = x j := hx.2 j
    have h3 : ∑ k, x k = 1 := hx.1.2
    change ∑ k, ((P ^ (t + 1)) i k - x k) * (P k j - x j) = ∑ k, (P ^ (t + 1)) i k * P k j - x j
    have h4 : ∀ k, ((P ^ (t + 1)) i k - x k) * (P k j - x j)
        = (P ^ (t + 1)) i k * P k j - (P ^ (t + 1)) i k * x j - x k * P k j + x k * x j :=
      fun k => by ring
    rw [sum_congr rfl fun k _ => h4 k, sum_add_distrib, sum_sub_distrib, sum_sub_distrib, ← sum_mul,
      ← sum_mul, h1, h2, h3]
    ring

theorem stationary_sum (hx : IsStationary (fun i j => P i j) x) (v : Fin n → ℂ) :
    ∑ i, (x i : ℂ) * ∑ j, (P i j : ℂ) * v j = ∑ j, (x j : ℂ) * v j := by
  simp only [mul_sum]
  rw [sum_comm]
  refine sum_congr rfl fun j _ => ?_
  rw [← hx.2 j, Complex.ofReal_sum, sum_mul]
  exact sum_congr rfl fun i _ => by rw [Complex.ofReal_mul]; ring

theorem deviation_apply (v : Fin n → ℂ) (i : Fin n) :
    ∑ j, (deviation P x i j : ℂ) * v j = ∑ j, (P i j : ℂ) * v j - ∑ j, (x j : ℂ) * v j := by
  rw [← sum_sub_distrib]
  refine sum_congr rfl fun j _ => ?_
  change (((P i j - x j : ℝ)) : ℂ) * v j = _
  rw [Complex.ofReal_sub, sub_mul]

/-- The eigenvalues of the deviation other than zero are those of the chain other than one. -/
theorem eigen_of_deviation (hP : IsStochastic fun i j => P i j)
    (hirr : Irreducible fun i j => P i j) (hx : IsStationary (fun i j => P i j) x) {z : ℂ} (hz : z ≠ 0)
    (h : IsEigenvalue (fun i j => deviation P x i j) z) :
    IsEigenvalue (fun i j => P i j) z ∧ z ≠ 1 := by
  obtain ⟨v, hv, h⟩ := h
  have h1 : ∑ j, (x j : ℂ) * v j = 0 := by
    have h2 : ∑ i, (x i : ℂ) * ∑ j, (deviation P x i j : ℂ) * v j = 0 := by
      simp only [deviation_apply, mul_sub, sum_sub_distrib, stationary_sum hx]
      rw [← sum_mul, ← Complex.ofReal_sum, hx.1.2, Complex.ofReal_one, one_mul, sub_self]
    have h3 : ∑ i, (x i : ℂ) * (z * v i) = 0 := by
      rw [← h2]
      exact sum_congr rfl fun i _ => by rw [h i]
    have h4 : z * ∑ i, (x i : ℂ) * v i = 0 := by
      rw [mul_sum, ← h3]
      exact sum_congr rfl fun i _ => by ring
    exact (mul_eq_zero.1 h4).resolve_left hz
  have h2 : ∀ i, ∑ j, (P i j : ℂ) * v j = z * v i := by
    intro i
    have h3 := h i
    rw [deviation_apply, h1, sub_zero] at h3
    exact h3
  refine ⟨⟨v, hv, h2⟩, ?_⟩
  rintro rfl
  obtain ⟨i0, hi0⟩ := Function.ne_iff.1 hv
  have h3 : ∀ j, v j = v i0 := by
    intro j
    have h4 := hirr i0 j
    induction h4 with
    | refl => rfl
    | tail _ e ih => rw [eigen_edge hP hirr h2 norm_one e, one_mul, ih]
  rw [sum_congr rfl fun j _ => by rw [h3 j], ← sum_mul, ← Complex.ofReal_sum, hx.1.2,
    Complex.ofReal_one, one_mul] at h1
  exact hi0 h1

theorem deviation_of_eigen (hx : IsStationary (fun i j => P i j) x) {z : ℂ} (hz : z ≠ 1)
    (h : IsEigenvalue (fun i j => P i j) z) : IsEigenvalue (fun i j => deviation P x i j) z := by
  obtain ⟨v, hv, h⟩ := h
  have h1 : ∑ j, (x j : ℂ) * v j = 0 := by
    have h2 := stationary_sum hx v
    have h3 : ∑ i, (x i : ℂ) * (z * v i) = ∑ j, (x j : ℂ) * v j := by
      rw [← h2]
      exact sum_congr rfl fun i _ => by rw [h i]
    have h4 : (z - 1) * ∑ i, (x i : ℂ) * v i = 0 := by
      rw [sub_mul, one_mul, mul_sum, ← h3, ← sum_sub_distrib]
      exact sum_eq_zero fun i _ => by ring
    exact (mul_eq_zero.1 h4).resolve_left (sub_ne_zero.2 hz)
  refine ⟨v, hv, fun i => ?_⟩
  rw [deviation_apply, h1, sub_zero]
  exact h i

theorem mem_spectrum_iff {z : ℂ} :
    z ∈ spectrum ℂ (P.map (algebraMap ℝ ℂ)) ↔ IsEigenvalue (fun i j => P i j) z := by
  rw [isEigenvalue_iff, Matrix.mem_spectrum_iff_isRoot_charpoly, Polynomial.mem_roots']
  exact ⟨fun h => ⟨(Matrix.charpoly_monic _).ne_zero, h⟩, fun h => h.2⟩

section

attribute [local instance] Matrix.linftyOpNormedRing Matrix.linftyOpNormedAlgebra

theorem spectralRadius_deviation (hP : IsStochastic fun i j => P i j)
    (hirr : Irreducible fun i j => P i j) (hx : IsStationary (fun i j => P i j) x) {s : ℝ}
    (hs : IsSecondModulus (fun i j => P i j) s) :
    spectralRadius ℂ ((deviation P x).map (algebraMap ℝ ℂ)) = ENNReal.ofReal s := by
  obtain ⟨⟨w, hw, hw1, hws⟩, hmax⟩ := hs
  refine le_antisymm (iSup₂_le fun z hz => ?_) ?_
  · change ‖z‖ₑ ≤ _
    rw [← ofReal_norm]
    by_cases h0 : z = 0
    · rw [h0, norm_zero, ENNReal.ofReal_zero]
      exact zero_le
    · obtain ⟨h1, h2⟩ := eigen_of_deviation hP hirr hx h0 (mem_spectrum_iff.1 hz)
      exact ENNReal.ofReal_le_ofReal (hmax z h1 h2)
  · rw [← hws, ofReal_norm]
    exact le_iSup₂ (f := fun (k : ℂ) (_ : k ∈ spectrum ℂ ((deviation P x).map (algebraMap ℝ ℂ))) =>
      (‖k‖₊ : ENNReal)) w (mem_spectrum_iff.2 (deviation_of_eigen hx hw1 hw))

theorem le_worstDistance (t : ℕ) (i : Fin n) : ∑ j, |(P ^ t) i j - x j| ≤ worstDistance P x t :=
  le_ciSup (f := fun i => ∑ j, |(P ^ t) i j - x j|) (Set.finite_range _).bddAbove i

theorem norm_deviation (hn : 0 < n) (hP : IsStochastic fun i j => P i j)
    (hx : IsStationary (fun i j => P i j) x) (t : ℕ) :
    ‖((deviation P x).map (algebraMap ℝ ℂ)) ^ (t + 1)‖ = worstDistance P x (t + 1) := by
  have : Nonempty (Fin n) := ⟨⟨0, hn⟩⟩
  have h1 : ((deviation P x).map (algebraMap ℝ ℂ)) ^ (t + 1)
      = (deviation (P ^ (t + 1)) x).map (algebraMap ℝ ℂ) := by
    rw [← deviation_pow hP hx, ← RingHom.mapMatrix_apply, ← RingHom.mapMatrix_apply, map_pow]
  rw [h1, Matrix.linfty_opNorm_def]
  have h2 : ∀ i, ((∑ j, ‖(deviation (P ^ (t + 1)) x).map (algebraMap ℝ ℂ) i j‖₊ : NNReal) : ℝ)
      = ∑ j, |(P ^ (t + 1)) i j - x j| := by
    intro i
    rw [NNReal.coe_sum]
    refine sum_congr rfl fun j _ => ?_
    rw [coe_nnnorm, Matrix.map_apply]
    exact Complex.norm_real _
  refine le_antisymm ?_ (ciSup_le fun i => ?_)
  · obtain ⟨i, -, hi⟩ := exists_mem_eq_sup (univ : Finset (Fin n)) univ_nonempty
      fun i => ∑ j, ‖(deviation (P ^ (t + 1)) x).map (algebraMap ℝ ℂ) i j‖₊
    rw [hi, h2]
    exact le_worstDistance _ i
  · rw [← h2]
    exact NNReal.coe_le_coe.2 (le_sup (f := fun i =>
      ∑ j, ‖(deviation (P ^ (t + 1)) x).map (algebraMap ℝ ℂ) i j‖₊) (mem_univ i))

/-- The `t`-th root of the distance tends to the second largest modulus. -/
theorem worstDistance_rate (hn : 0 < n) (hP : IsStochastic fun i j => P i j)
    (hirr : Irreducible fun i j => P i j) (hx : IsStationary (fun i j => P i j) x) {s : ℝ}
    (hs : IsSecondModulus (fun i j => P i j) s) :
    Tendsto (fun t : ℕ => worstDistance P x t ^ (1 / t : ℝ)) atTop (𝓝 s) := by
  have : CompleteSpace (Matrix (Fin n) (Fin n) ℂ) := FiniteDimensional.complete ℂ _
  have h1 := spectrum.pow_norm_pow_one_div_tendsto_nhds_spectralRadius
    ((deviation P x).map (algebraMap ℝ ℂ))
  rw [spectralRadius_deviation hP hirr hx hs] at h1
  have h0 : 0 ≤ s := by obtain ⟨⟨w, -, -, hw⟩, -⟩ := hs; rw [← hw]; exact norm_nonneg w
  have h2 := (ENNReal.tendsto_toReal ENNReal.ofReal_ne_top).comp h1
  rw [ENNReal.toReal_ofReal h0] at h2
  refine h2.congr' ?_
  filter_upwards [eventually_ge_atTop 1] with t ht
  obtain ⟨k, rfl⟩ : ∃ k, t = k + 1 := ⟨t - 1, by omega⟩
  change (ENNReal.ofReal _).toReal = _
  rw [ENNReal.toReal_ofReal (by positivity), norm_deviation hn hP hx]

/-- The distance is never smaller than the power of the second largest modulus. -/
theorem worstDistance_ge (hn : 0 < n) (hP : IsStochastic fun i j => P i j)
    (hx : IsStationary (fun i j => P i j) x) {s : ℝ}
    (hs : IsSecondModulus (fun i j => P i j) s) (t : ℕ) :
    s ^ (t + 1) ≤ worstDistance P x (t + 1) := by
  have : Nonempty (Fin n) := ⟨⟨0, hn⟩⟩
  have : CompleteSpace (Matrix (Fin n) (Fin n) ℂ) := FiniteDimensional.complete ℂ _
  obtain ⟨⟨w, hw, hw1, hws⟩, -⟩ := hs
  have h1 := mem_spectrum_iff.2 (deviation_of_eigen hx hw1 hw)
  have h2 := spectrum.pow_mem_pow ((deviation P x).map (algebraMap ℝ ℂ)) (t + 1) h1
  have h3 := spectrum.norm_le_norm_of_mem h2
  rw [norm_deviation hn hP hx, norm_pow, hws] at h3
  exact h3

/-- For every rate above the second largest modulus the distance is at most a multiple of its powers. -/
theorem worstDistance_le (hn : 0 < n) (hP : IsStochastic fun i j => P i j)
    (hirr : Irreducible fun i j => P i j) (hx : IsStationary (fun i j => P i j) x) {s r : ℝ}
    (hs : IsSecondModulus (fun i j => P i j) s) (hr : s < r) :
    ∃ C, ∀ t, worstDistance P x t ≤ C * r ^ t := by
  have h0 : 0 ≤ s := by obtain ⟨⟨w, -, -, hw⟩, -⟩ := hs; rw [← hw]; exact norm_nonneg w
  have hr0 : 0 < r := lt_of_le_of_lt h0 hr
  have : Nonempty (Fin n) := ⟨⟨0, hn⟩⟩
  have hd0 : ∀ t, 0 ≤ worstDistance P x t := fun t =>
    (sum_nonneg fun j _ => abs_nonneg _).trans (le_worstDistance t ⟨0, hn⟩)
  obtain ⟨N, hN⟩ := eventually_atTop.1
    ((worstDistance_rate hn hP hirr hx hs).eventually (gt_mem_nhds hr))
  obtain ⟨C, hC⟩ : ∃ C, ∀ t ∈ range (N + 1), worstDistance P x t / r ^ t ≤ C :=
    ((range (N + 1)).image fun t => worstDistance P x t / r ^ t).exists_le.imp fun C h t ht =>
      h _ (mem_image_of_mem _ ht)
  refine ⟨max C 1, fun t => ?_⟩
  have hpos : 0 < r ^ t := pow_pos hr0 t
  by_cases ht : t < N + 1
  · have h1 := (hC t (mem_range.2 ht)).trans (le_max_left C 1)
    exact (div_le_iff₀ hpos).1 h1
  · have h1 := (hN t (by omega)).le
    have h2 : worstDistance P x t ≤ r ^ t := by
      have h3 := Real.rpow_le_rpow (Real.rpow_nonneg (hd0 t) _) h1 (Nat.cast_nonneg t : (0 : ℝ) ≤ t)
      rw [← Real.rpow_mul (hd0 t), one_div, inv_mul_cancel₀ (by
        have : 0 < t := by omega
        positivity), Real.rpow_one, Real.rpow_natCast] at h3
      exact h3
    refine h2.trans ?_
    exact le_mul_of_one_le_left hpos.le (le_max_right C 1)

end

/-! ## Reversible chains -/

section

open scoped Matrix.Norms.L2Operator

/-- The deviation in the coordinates in which it is symmetric. -/
noncomputable def symmetrized (P : Matrix (Fin n) (Fin n) ℝ) (x : Fin n → ℝ) :
    Matrix (Fin n) (Fin n) ℝ := fun i j => Real.sqrt (x i) * deviation P x i j / Real.sqrt (x j)

theorem symmetrized_pow (hpos : ∀ i, 0 < x i) (t : ℕ) (i j : Fin n) :
    (symmetrized P x ^ (t + 1)) i j
      = Real.sqrt (x i) * (deviation P x ^ (t + 1)) i j / Real.sqrt (x j) := by
  induction t generalizing j with
  | zero => rw [zero_add, pow_one, pow_one]; rfl
  | succ t ih =>
    rw [pow_succ, pow_succ _ (t + 1), Matrix.mul_apply, Matrix.mul_apply, mul_sum, sum_div]
    refine sum_congr rfl fun k _ => ?_
    rw [ih]
    unfold symmetrized
    have h1 : Real.sqrt (x k) ≠ 0 := (Real.sqrt_pos.2 (hpos k)).ne'
    field_simp

theorem symmetrized_symm (hpos : ∀ i, 0 < x i) (hd : DetailedBalance (fun i j => P i j) x)
    (i j : Fin n) : symmetrized P x i j = symmetrized P x j i := by
  unfold symmetrized deviation
  have hi := Real.sqrt_pos.2 (hpos i)
  have hj := Real.sqrt_pos.2 (hpos j)
  rw [div_eq_div_iff hj.ne' hi.ne']
  have h1 : x i * P i j = x j * P j i := hd i j
  have h2 := Real.mul_self_sqrt (hpos i).le
  have h3 := Real.mul_self_sqrt (hpos j).le
  have h4 : Real.sqrt (x i) * (P i j - x j) * Real.sqrt (x i) = x i * P i j - x i * x j := by
    rw [mul_right_comm, h2]; ring
  have h5 : Real.sqrt (x j) * (P j i - x i) * Real.sqrt (x j) = x j * P j i - x i * x j := by
    rw [mul_right_comm, h3]; ring
  rw [h4, h5, h1]

theorem eigen_symmetrized (hpos : ∀ i, 0 < x i) {z : ℂ}
    (h : IsEigenvalue (fun i j => symmetrized P x i j) z) :
    IsEigenvalue (fun i j => deviation P x i j) z := by
  obtain ⟨v, hv, h⟩ := h
  have hne : ∀ i, ((Real.sqrt (x i) : ℝ) : ℂ) ≠ 0 := fun i =>
    Complex.ofReal_ne_zero.2 (Real.sqrt_pos.2 (hpos i)).ne'
  refine ⟨fun i => v i / (Real.sqrt (x i) : ℝ), fun h0 => hv ?_, fun i => ?_⟩
  · funext i
    have h1 : v i / ((Real.sqrt (x i) : ℝ) : ℂ) = 0 := congrFun h0 i
    exact (div_eq_zero_iff.1 h1).resolve_right (hne i)
  · have h1 := h i
    have h2 : ∑ j, ((symmetrized P x i j : ℝ) : ℂ) * v j = ((Real.sqrt (x i) : ℝ) : ℂ) *
        ∑ j, ((deviation P x i j : ℝ) : ℂ) * (v j / ((Real.sqrt (x j) : ℝ) : ℂ)) := by
      rw [mul_sum]
      refine sum_congr rfl fun j _ => ?_
      unfold symmetrized
      rw [Complex.ofReal_div, Complex.ofReal_mul]
      ring
    have h3 : ((Real.sqrt (x i) : ℝ) : ℂ) *
        ∑ j, ((deviation P x i j : ℝ) : ℂ) * (v j / ((Real.sqrt (x j) : ℝ) : ℂ)) = z * v i :=
      h2.symm.trans h1
    rw [← mul_div_assoc, eq_div_iff (hne i), mul_comm]
    exact h3

/-- The operator norm of the symmetric matrix. -/
theorem norm_symmetrized (hP : IsStochastic fun i j => P i j) (hirr : Irreducible fun i j => P i j)
    (hx : IsStationary (fun i j => P i j) x) (hpos : ∀ i, 0 < x i)
    (hd : DetailedBalance (fun i j => P i j) x) {s : ℝ} (hs : IsSecondModulus (fun i j => P i j) s) :
    ‖(symmetrized P x).map (algebraMap ℝ ℂ)‖ ≤ s := by
  have h0 : 0 ≤ s := by obtain ⟨⟨w, -, -, hw⟩, -⟩ := hs; rw [← hw]; exact norm_nonneg w
  have hsa : IsSelfAdjoint ((symmetrized P x).map (algebraMap ℝ ℂ)) := by
    change Matrix.conjTranspose _ = _
    ext i j
    rw [Matrix.conjTranspose_apply, Matrix.map_apply, Matrix.map_apply,
      symmetrized_symm hpos hd j i]
    exact Complex.conj_ofReal _
  have h1 := hsa.spectralRadius_eq_nnnorm
  have h2 : spectralRadius ℂ ((symmetrized P x).map (algebraMap ℝ ℂ)) ≤ ENNReal.ofReal s := by
    refine iSup₂_le fun z hz => ?_
    change ‖z‖ₑ ≤ _
    rw [← ofReal_norm]
    by_cases h0 : z = 0
    · rw [h0, norm_zero, ENNReal.ofReal_zero]
      exact zero_le
    · obtain ⟨h1, h2⟩ := eigen_of_deviation hP hirr hx h0
        (eigen_symmetrized hpos (mem_spectrum_iff.1 hz))
      exact ENNReal.ofReal_le_ofReal (hs.2 z h1 h2)
  rw [h1] at h2
  change ‖(symmetrized P x).map (algebraMap ℝ ℂ)‖ₑ ≤ _ at h2
  rw [← ofReal_norm] at h2
  exact (ENNReal.ofReal_le_ofReal_iff h0).1 h2

/-- The rows of the powers of the symmetric matrix. -/
theorem symmetrized_row (hP : IsStochastic fun i j => P i j) (hirr : Irreducible fun i j => P i j)
    (hx : IsStationary (fun i j => P i j) x) (hpos : ∀ i, 0 < x i)
    (hd : DetailedBalance (fun i j => P i j) x) {s : ℝ} (hs : IsSecondModulus (fun i j => P i j) s)
    (t : ℕ) (i : Fin n) : ∑ j, (symmetrized P x ^ (t + 1)) i j ^ 2 ≤ (s ^ (t + 1)) ^ 2 := by
  have hsym : ∀ j, (symmetrized P x ^ (t + 1)) i j = (symmetrized P x ^ (t + 1)) j i := by
    intro j
    have h1 : (symmetrized P x).transpose = symmetrized P x := by
      ext a b
      exact symmetrized_symm hpos hd b a
    have h2 : (symmetrized P x ^ (t + 1)).transpose = symmetrized P x ^ (t + 1) := by
      rw [Matrix.transpose_pow, h1]
    exact congrFun (congrFun h2 j) i
  obtain ⟨M, hM⟩ : ∃ M, M = ((symmetrized P x).map (algebraMap ℝ ℂ)) ^ (t + 1) := ⟨_, rfl⟩
  have hMe : ∀ a b, M a b = (((symmetrized P x ^ (t + 1)) a b : ℝ) : ℂ) := by
    intro a b
    rw [hM, ← RingHom.mapMatrix_apply, ← map_pow]
    rfl
  have h1 := Matrix.l2_opNorm_mulVec M (EuclideanSpace.single i (1 : ℂ))
  have h2 : ‖M‖ ≤ s ^ (t + 1) := by
    rw [hM]
    exact (norm_pow_le' _ (by omega)).trans
      (pow_le_pow_left₀ (norm_nonneg _) (norm_symmetrized hP hirr hx hpos hd hs) _)
  rw [PiLp.norm_single, norm_one, mul_one] at h1
  have h3 := h1.trans h2
  have h4 := pow_le_pow_left₀ (norm_nonneg _) h3 2
  rw [EuclideanSpace.norm_sq_eq] at h4
  refine le_trans (le_of_eq (sum_congr rfl fun j _ => ?_)) h4
  have h5 : (M.mulVec fun k => if k = i then (1 : ℂ) else 0) j = M j i := by
    rw [Matrix.mulVec, dotProduct]
    simp
  have h6 : ‖M j i‖ = |(symmetrized P x ^ (t + 1)) i j| := by
    rw [hMe, hsym j]
    exact Complex.norm_real _
  rw [← sq_abs, ← h6, ← h5]
  congr 2
  refine congrArg (fun v => M.mulVec v j) ?_
  funext k
  rw [PiLp.single_apply]

/-- The distance of a reversible chain to its stationary distribution. -/
theorem reversible_distance (hP : IsStochastic fun i j => P i j)
    (hirr : Irreducible fun i j => P i j) (hx : IsStationary (fun i j => P i j) x)
    (hpos : ∀ i, 0 < x i) (hd : DetailedBalance (fun i j => P i j) x) {s : ℝ}
    (hs : IsSecondModulus (fun i j => P i j) s) (t : ℕ) (i : Fin n) :
    ∑ j, |(P ^ (t + 1)) i j - x j| ≤ s ^ (t + 1) / Real.sqrt (x i) := by
  have h0 : 0 ≤ s := by obtain ⟨⟨w, -, -, hw⟩, -⟩ := hs; rw [← hw]; exact norm_nonneg w
  have hi := Real.sqrt_pos.2 (hpos i)
  rw [le_div_iff₀ hi, sum_mul]
  have h1 : ∀ j, |(P ^ (t + 1)) i j - x j| * Real.sqrt (x i)
      = |(symmetrized P x ^ (t + 1)) i j| * Real.sqrt (x j) := by
    intro j
    have hj := Real.sqrt_pos.2 (hpos j)
    rw [symmetrized_pow hpos, deviation_pow hP hx, abs_div, abs_mul, abs_of_pos hi, abs_of_pos hj,
      div_mul_cancel₀ _ hj.ne', mul_comm]
    rfl
  rw [sum_congr rfl fun j _ => h1 j]
  have h2 := sum_mul_sq_le_sq_mul_sq univ (fun j => |(symmetrized P x ^ (t + 1)) i j|)
    fun j => Real.sqrt (x j)
  have h3 : ∑ j, Real.sqrt (x j) ^ 2 = 1 := by
    rw [sum_congr rfl fun j _ => Real.sq_sqrt (hpos j).le]
    exact hx.1.2
  rw [h3, mul_one] at h2
  have h4 := symmetrized_row hP hirr hx hpos hd hs t i
  refine abs_le_of_sq_le_sq' ?_ (pow_nonneg h0 _) |>.2
  refine h2.trans (le_trans (le_of_eq (sum_congr rfl fun j _ => ?_)) h4)
  rw [sq_abs]

end

/-! ## The properties of a chain -/

/-- The second largest modulus that is returned for a chain. -/
theorem slem_modulus {c : MC ℝ} (hc : c.Valid) {nx : Nx c.n} (hx : nx.Sound c.p) {ev : List ℂ}
    (hev : EigvalsSound c.p ev) (hgap : ∀ z ∈ ev, z ≠ 1 → isclose ‖z‖ 1 = false) {s : ℝ}
    (h : slem c nx ev = .ok (some s)) : Ergodic c.p ∧ IsSecondModulus c.p s ∧ 0 < s ∧ s < 1 := by
  obtain ⟨h1, h2⟩ := C86_second_modulus_partial hc hx hev hgap
  by_cases he : Ergodic c.p
  · obtain ⟨s', k1, k2, k3, k4, k5⟩ := h1 he
    by_cases hs : s' ≤ 1 / 10 ^ 8
    · rw [(k4 hs).1] at h
      cases h
    · rw [(k5 (not_le.1 hs)).1] at h
      cases h
      exact ⟨he, k1, lt_trans (by norm_num) (not_le.1 hs), k3⟩
  · rw [(h2 he).1] at h
    cases h

/-- C129. The second largest modulus `s` of the eigenvalues of an ergodic chain is the rate of its
convergence to the stationary distribution: for the worst initial state, the `t`-th root of the
distance after `t` steps tends to `s`, the distance is at least `s ^ t`, and it is at most a multiple
of `r ^ t` for every `r` above `s`. As in `C86_second_modulus_partial`, no other eigenvalue has a
modulus close to one. -/
theorem C129_rate {c : MC ℝ} (hc : c.Valid) {nx : Nx c.n} (hx : nx.Sound c.p) {ev : List ℂ}
    (hev : EigvalsSound c.p ev) (hgap : ∀ z ∈ ev, z ≠ 1 → isclose ‖z‖ 1 = false) {s : ℝ}
    (h : slem c nx ev = .ok (some s)) :
    ∃ x, pi c nx.sccs = .ok [x] ∧ IsStationary c.p x ∧
      Tendsto (fun t : ℕ => worstDistance c.p x t ^ (1 / t : ℝ)) atTop (𝓝 s) ∧
      (∀ t, 1 ≤ t → s ^ t ≤ worstDistance c.p x t) ∧
      ∀ r, s < r → ∃ C, ∀ t, worstDistance c.p x t ≤ C * r ^ t := by
  obtain ⟨he, hs, -, -⟩ := slem_modulus hc hx hev hgap h
  obtain ⟨x, h1, h2, -, -⟩ := C34_stationary hc hx.sccs he.1
  have hn : 0 < c.n := by have := hc.1; omega
  refine ⟨x, h1, h2, worstDistance_rate hn hc.2.1 he.1 h2 hs, fun t ht => ?_, fun r hr =>
    worstDistance_le hn hc.2.1 he.1 h2 hs hr⟩
  obtain ⟨k, rfl⟩ : ∃ k, t = k + 1 := ⟨t - 1, by omega⟩
  exact worstDistance_ge hn hc.2.1 h2 hs k

/-- C129. The mixing rate is the time in which the distance shrinks by the factor `e`: the negated
logarithm of the distance grows by its reciprocal per step. -/
theorem C129_mixing_rate {c : MC ℝ} (hc : c.Valid) {nx : Nx c.n} (hx : nx.Sound c.p) {ev : List ℂ}
    (hev : EigvalsSound c.p ev) (hgap : ∀ z ∈ ev, z ≠ 1 → isclose ‖z‖ 1 = false) {m : ℝ}
    (h : mixingRate c nx ev = .ok (some m)) :
    0 < m ∧ ∃ x, pi c nx.sccs = .ok [x] ∧ IsStationary c.p x ∧
      Tendsto (fun t : ℕ => -Real.log (worstDistance c.p x t) / t) atTop (𝓝 (1 / m)) := by
  unfold mixingRate at h
  rw [R.bind_ok] at h
  obtain ⟨o, ho, h⟩ := h
  rw [R.pure_ok] at h
  obtain ⟨s, rfl, rfl⟩ : ∃ s, o = some s ∧ -1 / Real.log s = m := by
    cases o with
    | none => cases h
    | some s => exact ⟨s, rfl, Option.some.inj h⟩
  obtain ⟨-, -, h0, h1⟩ := slem_modulus hc hx hev hgap ho
  obtain ⟨x, k1, k2, k3, k4, -⟩ := C129_rate hc hx hev hgap ho
  refine ⟨div_pos_of_neg_of_neg (by norm_num) (Real.log_neg h0 h1), x, k1, k2, ?_⟩
  have h2 := ((Real.continuousAt_log h0.ne').tendsto.comp k3).neg
  have h3 : -Real.log s = 1 / (-1 / Real.log s) := by
    rw [one_div, inv_div, div_neg, div_one]
  rw [h3] at h2
  refine h2.congr' ?_
  filter_upwards [eventually_ge_atTop 1] with t ht
  have hpos : 0 < worstDistance c.p x t := lt_of_lt_of_le (pow_pos h0 t) (k4 t ht)
  change -Real.log (worstDistance c.p x t ^ (1 / t : ℝ)) = _
  rw [Real.log_rpow hpos]
  ring

/-- C129. For a chain in detailed balance the bound holds at all times without an unknown factor:
from the state `i` the distance after `t` steps is at most `s ^ t / sqrt (x i)`, hence at most
`exp (-t / relaxation_rate) / sqrt (x i)`. -/
theorem C129_reversible {c : MC ℝ} (hc : c.Valid) {nx : Nx c.n} (hx : nx.Sound c.p) {ev : List ℂ}
    (hev : EigvalsSound c.p ev) (hgap : ∀ z ∈ ev, z ≠ 1 → isclose ‖z‖ 1 = false) {r : ℝ}
    (h : relaxationRate c nx ev = .ok (some r)) :
    ∃ s x, slem c nx ev = .ok (some s) ∧ r = 1 / (1 - s) ∧ pi c nx.sccs = .ok [x] ∧ (∀ i, 0 < x i) ∧
      (DetailedBalance c.p x → ∀ (t : ℕ) (i : Fin c.n), 1 ≤ t →
        ∑ j, |(c.p ^ t) i j - x j| ≤ s ^ t / Real.sqrt (x i) ∧
        ∑ j, |(c.p ^ t) i j - x j| ≤ Real.exp (-t / r) / Real.sqrt (x i)) := by
  unfold relaxationRate at h
  rw [R.bind_ok] at h
  obtain ⟨o, ho, h⟩ := h
  rw [R.pure_ok] at h
  obtain ⟨s, rfl, rfl⟩ : ∃ s, o = some s ∧ 1 / (1 - s) = r := by
    cases o with
    | none => cases h
    | some s => exact ⟨s, rfl, Option.some.inj h⟩
  obtain ⟨he, hs, h0, h1⟩ := slem_modulus hc hx hev hgap ho
  obtain ⟨x, k1, k2, k3, -⟩ := C34_stationary hc hx.sccs he.1
  refine ⟨s, x, ho, rfl, k1, k3, fun hd t i ht => ?_⟩
  obtain ⟨k, rfl⟩ : ∃ k, t = k + 1 := ⟨t - 1, by omega⟩
  have h2 := reversible_distance (P := c.p) hc.2.1 he.1 k2 k3 hd hs k i
  refine ⟨h2, h2.trans (div_le_div_of_nonneg_right ?_ (Real.sqrt_nonneg _))⟩
  have h3 : s ≤ Real.exp (-(1 - s)) := by
    have := Real.add_one_le_exp (-(1 - s))
    linarith
  have h4 : -((k + 1 : ℕ) : ℝ) / (1 / (1 - s)) = ((k + 1 : ℕ) : ℝ) * (-(1 - s)) := by
    rw [div_div_eq_mul_div, div_one]; ring
  rw [h4, Real.exp_nat_mul]
  exact pow_le_pow_left₀ h0.le h3 _

/-- C129. The mixing time of a chain in detailed balance is bounded by its relaxation rate. If `t`
is at least `relaxation_rate * log (1 / (cutoff * sqrt (x i)))` for all states `i`, the mixing time is
at most `t`; the answer `None` is possible only if `t` exceeds 99. -/
theorem C129_mixing_time {c : MC ℝ} (hc : c.Valid) {nx : Nx c.n} (hx : nx.Sound c.p) {ev : List ℂ}
    (hev : EigvalsSound c.p ev) (hgap : ∀ z ∈ ev, z ≠ 1 → isclose ‖z‖ 1 = false) {r : ℝ}
    (h : relaxationRate c nx ev = .ok (some r)) {x : Fin c.n → ℝ} (hpi : pi c nx.sccs = .ok [x])
    (hdb : DetailedBalance c.p x) {natural : ℝ} (hn0 : 0 < natural) (hnat : natural < 1)
    {d : Option (PyVal ℝ)} {jump kind : PyVal ℝ} {y : Fin c.n → ℝ} {k : String}
    (hd : initialDistribution c.n d = .ok y) (hy : IsDist y)
    (hj : validateInteger jump (some (0, true)) none = .ok 1)
    (hk : validateEnumerator kind ["natural", "traditional"] = .ok k) {t : ℕ} (ht : 1 ≤ t)
    (hbound : ∀ i, r * Real.log (1 / ((if k = "traditional" then 1 / 4 else natural) *
      Real.sqrt (x i))) ≤ t) :
    ∃ o, mixingTime c nx natural d jump kind = .ok o ∧ (∀ m, o = some m → m ≤ t) ∧
      (o = none → 99 < t) := by
  obtain ⟨s, x', h1, rfl, h2, h3, h4⟩ := C129_reversible hc hx hev hgap h
  obtain rfl : x' = x := by
    rw [hpi] at h2
    cases h2
    rfl
  obtain ⟨he, -, hs0, hs1⟩ := slem_modulus hc hx hev hgap h1
  obtain ⟨cut, hcut⟩ : ∃ cut, cut = if k = "traditional" then (1 / 4 : ℝ) else natural := ⟨_, rfl⟩
  have hc0 : 0 < cut := by
    rw [hcut]
    split
    · norm_num
    · exact hn0
  have hdist : ∀ i, ∑ j, |(c.p ^ t) i j - x' j| ≤ cut := by
    intro i
    refine (h4 hdb t i ht).2.trans ?_
    have hi := Real.sqrt_pos.2 (h3 i)
    rw [div_le_iff₀ hi]
    have h5 := hbound i
    rw [← hcut, one_div (cut * _), Real.log_inv] at h5
    have h6 : -(t : ℝ) / (1 / (1 - s)) ≤ Real.log (cut * Real.sqrt (x' i)) := by
      rw [div_le_iff₀ (one_div_pos.2 (sub_pos.2 hs1))]
      linarith
    exact (Real.exp_le_exp.2 h6).trans (le_of_eq (Real.exp_log (mul_pos hc0 hi)))
  obtain ⟨z, hz, o, ho, ho1, ho2⟩ := C50_single_jump_partial hc hx he hnat hd hj hk
  obtain rfl : z = x' := by
    obtain ⟨w, w1, -, -, w4⟩ := C34_stationary hc hx.sccs he.1
    rw [hpi] at w1
    cases w1
    exact w4 z hz
  rw [← hcut] at ho1 ho2
  have hat : distAt c.p z y t ≤ cut := by
    unfold distAt
    have h5 : ∀ j, |Matrix.vecMul y (c.p ^ t) j - z j| ≤ ∑ i, y i * |(c.p ^ t) i j - z j| := by
      intro j
      have h6 : Matrix.vecMul y (c.p ^ t) j - z j = ∑ i, y i * ((c.p ^ t) i j - z j) := by
        simp only [mul_sub, sum_sub_distrib]
        rw [← sum_mul, hy.2, one_mul]
        rfl
      rw [h6]
      refine (abs_sum_le_sum_abs _ _).trans (le_of_eq (sum_congr rfl fun i _ => ?_))
      rw [abs_mul, abs_of_nonneg (hy.1 i)]
    refine (sum_le_sum fun j _ => h5 j).trans ?_
    rw [sum_comm]
    calc ∑ i, ∑ j, y i * |(c.p ^ t) i j - z j| = ∑ i, y i * ∑ j, |(c.p ^ t) i j - z j| :=
          sum_congr rfl fun i _ => (mul_sum _ _ _).symm
      _ ≤ ∑ i, y i * cut := sum_le_sum fun i _ => mul_le_mul_of_nonneg_left (hdist i) (hy.1 i)
      _ = cut := by rw [← sum_mul, hy.2, one_mul]
  refine ⟨o, ho, fun m hm => ?_, fun hm => ?_⟩
  · obtain ⟨t', rfl, -, -, h7⟩ := ho1 m hm
    by_contra hlt
    have h8 := h7 t ht (by omega)
    linarith
  · by_contra hlt
    have h8 := ho2 hm t ht (by omega)
    linarith

/-- The hypotheses of the theorems can be met. -/
theorem C129_instance : ∃ (ev : List ℂ) (s : ℝ), (exSymmetric (1 / 4)).Valid ∧
    (exSymmetricNx (1 / 4)).Sound (exSymmetric (1 / 4)).p ∧ EigvalsSound (exSymmetric (1 / 4)).p ev ∧
    (∀ z ∈ ev, z ≠ 1 → isclose ‖z‖ 1 = false) ∧
    slem (exSymmetric (1 / 4)) (exSymmetricNx (1 / 4)) ev = .ok (some s) ∧
    relaxationRate (exSymmetric (1 / 4)) (exSymmetricNx (1 / 4)) ev = .ok (some (1 / (1 - s))) ∧
    mixingRate (exSymmetric (1 / 4)) (exSymmetricNx (1 / 4)) ev = .ok (some (-1 / Real.log s)) ∧
    pi (exSymmetric (1 / 4)) (exSymmetricNx (1 / 4)).sccs = .ok [fun _ => 1 / 2] ∧
    DetailedBalance (exSymmetric (1 / 4)).p (fun _ => 1 / 2) ∧
    initialDistribution (K := ℝ) 2 none = .ok (fun _ => 1 / 2) ∧ IsDist (fun _ : Fin 2 => (1 / 2 : ℝ)) ∧
    ∃ t : ℕ, 1 ≤ t ∧ 1 / (1 - s) * Real.log (1 / (1 / 4 * Real.sqrt (1 / 2))) ≤ t := by
  have hv := exSymmetric_valid (q := 1 / 4) (by norm_num) (by norm_num)
  have hn : (exSymmetricNx (1 / 4)).Sound (exSymmetric (1 / 4)).p :=
    Nx.ofClasses_sound true (swapP_classes (by norm_num) (by norm_num))
  have he : Ergodic (exSymmetric (1 / 4)).p := swapP_ergodic (by norm_num) (by norm_num)
  have hev := swapP_sound (1 / 4)
  have hgap : ∀ z ∈ [1, ((1 - 2 * (1 / 4) : ℝ) : ℂ)], z ≠ 1 → isclose ‖z‖ 1 = false := by
    intro z hz hz1
    rcases List.mem_cons.1 hz with h | h
    · exact absurd h hz1
    · rw [List.mem_singleton.1 h, Complex.norm_real]
      unfold isclose
      rw [decide_eq_false_iff_not]
      norm_num
  obtain ⟨s, h1, -, -, -, h5⟩ := (C86_second_modulus_partial hv hn hev hgap).1 he
  have hs : 1 / 2 ≤ s := by
    have h2 := h1.2 ((1 - 2 * (1 / 4) : ℝ) : ℂ) (isEigenvalue_iff (P := swapP (1 / 4)) |>.2 (by
      rw [swapP_roots]
      simp)) (by
      intro h0
      have h3 : (1 - 2 * (1 / 4) : ℝ) = 1 := by exact_mod_cast h0
      norm_num at h3)
    rw [Complex.norm_real] at h2
    norm_num at h2
    linarith
  obtain ⟨k1, -, k3, k4, -⟩ := h5 (lt_of_lt_of_le (by norm_num) hs)
  have hst : IsStationary (exSymmetric (1 / 4)).p (fun _ => 1 / 2) := by
    refine ⟨⟨fun _ => by norm_num, ?_⟩, fun j => ?_⟩
    · change ∑ _ : Fin 2, (1 / 2 : ℝ) = 1
      norm_num
    · change ∑ i : Fin 2, 1 / 2 * swapP (1 / 4) i j = 1 / 2
      rw [Fin.sum_univ_two]
      change Fin 2 at j
      fin_cases j <;> simp [swapP] <;> norm_num
  obtain ⟨t, ht⟩ := exists_nat_ge (1 / (1 - s) * Real.log (1 / (1 / 4 * Real.sqrt (1 / 2))))
  refine ⟨_, s, hv, hn, hev, hgap, k1, k3, k4, ?_, ?_, ?_, ⟨fun _ => by norm_num, by norm_num⟩, t + 1,
    by omega, ht.trans (by push_cast; linarith)⟩
  · obtain ⟨x, h2, -, -, h3⟩ := C34_stationary hv hn.sccs he.1
    rw [h2, h3 _ hst]
  · intro i j
    change 1 / 2 * swapP (1 / 4) i j = 1 / 2 * swapP (1 / 4) j i
    change Fin 2 at i j
    fin_cases i <;> fin_cases j <;> simp [swapP]
  · change Except.ok _ = _
    norm_num

end Verif
