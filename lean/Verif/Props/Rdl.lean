import Verif.Model.Spectral
import Verif.Props.Times
import Verif.Props.Spectral
import Verif.Props.Passage
import Verif.Props.Transform
import Mathlib.Tactic.FinCases
import Mathlib.LinearAlgebra.Matrix.Determinant.Basic
import Mathlib.Tactic.LinearCombination

/-!
# The eigendecomposition behind correlations and relaxations (C84, C85)
-/

set_option linter.unusedSectionVars false

namespace Verif

open Finset

section Decomposition

variable {n : ℕ} {P : Matrix (Fin n) (Fin n) ℝ} {e : EigResult n}

/-- The matrix of eigenvectors in the order of the program. -/
noncomputable def sortedVectors (e : EigResult n) (σ : Equiv.Perm (Fin n)) :
    Matrix (Fin n) (Fin n) ℂ := fun i j => e.vectors i (σ j)

theorem sortedVectors_det (e : EigResult n) (σ : Equiv.Perm (Fin n)) (h : e.vectors.det ≠ 0) :
    (sortedVectors e σ).det ≠ 0 := by
  have h1 : sortedVectors e σ = e.vectors.submatrix id σ := rfl
  rw [h1, Matrix.det_permute']
  refine mul_ne_zero ?_ h
  rcases Int.units_eq_one_or (Equiv.Perm.sign σ) with h2 | h2 <;> rw [h2] <;> simp

theorem rdlDecomposition_eq (e : EigResult n) (σ : Equiv.Perm (Fin n)) (h : e.vectors.det ≠ 0) :
    rdlDecomposition e σ = .ok (rdlReal (fun j => e.values (σ j))
      (scaleFirst (firstColumnSum ((sortedVectors e σ).transpose)⁻¹)
        (firstColumnSum ((sortedVectors e σ).transpose)⁻¹) (sortedVectors e σ))
      (scaleFirst (firstColumnSum ((sortedVectors e σ).transpose)⁻¹)
        (firstColumnSum ((sortedVectors e σ).transpose)⁻¹)⁻¹ ((sortedVectors e σ).transpose)⁻¹)) := by
  unfold rdlDecomposition
  have h1 : complexInv (Matrix.transpose fun i j => e.vectors i (σ j))
      = .ok ((sortedVectors e σ).transpose)⁻¹ := by
    unfold complexInv
    refine if_neg ?_
    rw [show (Matrix.transpose fun i j => e.vectors i (σ j)) = (sortedVectors e σ).transpose from rfl,
      Matrix.det_transpose]
    exact sortedVectors_det e σ h
  rw [h1]
  rfl

/-- If all eigenvalues are real and the eigenvectors form a basis, the decomposition is right. -/
theorem rdl_sound_of_real (he : e.Sound P) (σ : Equiv.Perm (Fin n)) (hdet : e.vectors.det ≠ 0)
    (hreal : ∀ j, (e.values j).im = 0) :
    ∃ rdl, rdlDecomposition e σ = .ok rdl ∧ rdl.Sound P := by
  refine ⟨_, rdlDecomposition_eq e σ hdet, ?_⟩
  obtain ⟨W, hW⟩ : ∃ W : Matrix (Fin n) (Fin n) ℝ, W = fun i j => (sortedVectors e σ i j).re :=
    ⟨_, rfl⟩
  have hV : sortedVectors e σ = W.map (algebraMap ℝ ℂ) := by
    funext i j
    apply Complex.ext
    · rw [hW]; rfl
    · exact he.2.1 _ (hreal _) i
  have hWdet : W.det ≠ 0 := by
    intro h0
    apply sortedVectors_det e σ hdet
    have h1 := RingHom.map_det (algebraMap ℝ ℂ) W
    rw [h0, map_zero] at h1
    rw [hV]
    exact h1.symm
  have hWu : IsUnit W.det := isUnit_iff_ne_zero.2 hWdet
  have hWtu : IsUnit W.transpose.det := by rw [Matrix.det_transpose]; exact hWu
  have hl : ((sortedVectors e σ).transpose)⁻¹ = (W⁻¹).transpose.map (algebraMap ℝ ℂ) := by
    apply Matrix.inv_eq_left_inv
    rw [hV, ← Matrix.transpose_map, ← Matrix.map_mul, ← Matrix.transpose_mul,
      Matrix.mul_nonsing_inv _ hWu, Matrix.transpose_one, Matrix.map_one _ (map_zero _) (map_one _)]
  obtain ⟨κ, hκ⟩ : ∃ κ : ℝ, firstColumnSum ((sortedVectors e σ).transpose)⁻¹ = (κ : ℂ) := by
    rw [hl]
    refine ⟨∑ i, ∑ j : Fin n, if j.val = 0 then (W⁻¹).transpose i j else 0, ?_⟩
    unfold firstColumnSum
    push_cast
    refine Finset.sum_congr rfl fun i _ => Finset.sum_congr rfl fun j _ => ?_
    split
    · rfl
    · rfl
  rw [hκ, hl, hV]
  obtain ⟨s, hs⟩ : ∃ s : Fin n → ℝ, s = fun j => if ‖(κ : ℂ)‖ ≤ 1 / 10 ^ 8 then 1
    else if j.val = 0 then κ else 1 := ⟨_, rfl⟩
  have hs0 : ∀ j, s j ≠ 0 := by
    intro j
    rw [hs]
    dsimp only
    split
    · exact one_ne_zero
    · next h1 =>
      split
      · intro h0
        rw [h0] at h1
        exact h1 (by simp)
      · exact one_ne_zero
  have hr : ∀ i j, (scaleFirst (κ : ℂ) κ (W.map (algebraMap ℝ ℂ)) i j).re = W i j * s j := by
    intro i j
    unfold scaleFirst
    rw [hs]
    dsimp only
    split
    · simp
    · split
      · simp
      · simp
  have hL : ∀ i j, (scaleFirst (κ : ℂ) (κ : ℂ)⁻¹ ((W⁻¹).transpose.map (algebraMap ℝ ℂ)) j i).re
      = W⁻¹ i j * (s i)⁻¹ := by
    intro i j
    unfold scaleFirst
    rw [hs]
    dsimp only
    split
    · simp
    · split
      · rw [← Complex.ofReal_inv]; simp
      · simp
  have hq : ∀ i j, ∑ k, P i k * W k j = W i j * (e.values (σ j)).re := by
    intro i j
    have h1 := congrArg Complex.re (he.1 i (σ j))
    rw [Complex.mul_re, hreal, mul_zero, sub_zero, Complex.re_sum] at h1
    rw [hW]
    refine Eq.trans ?_ h1
    refine Finset.sum_congr rfl fun k _ => ?_
    rw [Complex.mul_re, Complex.ofReal_re, Complex.ofReal_im, zero_mul, sub_zero]
    rfl
  obtain ⟨rdl, hrdl⟩ : ∃ rdl : Rdl ℝ n, rdl = rdlReal (fun j => e.values (σ j))
    (scaleFirst (κ : ℂ) κ (W.map (algebraMap ℝ ℂ)))
    (scaleFirst (κ : ℂ) (κ : ℂ)⁻¹ ((W⁻¹).transpose.map (algebraMap ℝ ℂ))) := ⟨_, rfl⟩
  have hR : rdl.r = W * Matrix.diagonal s := by
    rw [hrdl]
    funext i j
    rw [Matrix.mul_diagonal]
    exact hr i j
  have hLL : rdl.l = Matrix.diagonal (fun i => (s i)⁻¹) * W⁻¹ := by
    rw [hrdl]
    funext i j
    rw [Matrix.diagonal_mul, mul_comm]
    exact hL i j
  have hQ : rdl.q = fun j => (e.values (σ j)).re := by rw [hrdl]; rfl
  rw [← hrdl]
  have hPW : P * W = W * Matrix.diagonal fun j => (e.values (σ j)).re := by
    funext i j
    rw [Matrix.mul_diagonal]
    exact hq i j
  have hds : Matrix.diagonal (fun i => (s i)⁻¹) * Matrix.diagonal s = 1 := by
    rw [Matrix.diagonal_mul_diagonal]
    rw [← Matrix.diagonal_one]
    congr 1
    funext i
    exact inv_mul_cancel₀ (hs0 i)
  have hds' : Matrix.diagonal s * Matrix.diagonal (fun i => (s i)⁻¹) = 1 := mul_eq_one_comm.1 hds
  constructor
  · rw [hR, hLL, Matrix.mul_assoc, ← Matrix.mul_assoc W⁻¹, Matrix.nonsing_inv_mul _ hWu,
      Matrix.one_mul, hds]
  · rw [hR, hLL, hQ]
    have hcomm : Matrix.diagonal s * Matrix.diagonal (fun j => (e.values (σ j)).re)
        = Matrix.diagonal (fun j => (e.values (σ j)).re) * Matrix.diagonal s := by
      rw [Matrix.diagonal_mul_diagonal, Matrix.diagonal_mul_diagonal]
      congr 1
      funext i
      exact mul_comm _ _
    calc P = P * W * W⁻¹ := by rw [Matrix.mul_assoc, Matrix.mul_nonsing_inv _ hWu, Matrix.mul_one]
      _ = W * Matrix.diagonal (fun j => (e.values (σ j)).re) * W⁻¹ := by rw [hPW]
      _ = W * (Matrix.diagonal (fun j => (e.values (σ j)).re) *
            (Matrix.diagonal s * Matrix.diagonal (fun i => (s i)⁻¹))) * W⁻¹ := by
          rw [hds', Matrix.mul_one]
      _ = _ := by
          rw [← Matrix.mul_assoc (Matrix.diagonal _) (Matrix.diagonal s), ← hcomm]
          simp only [Matrix.mul_assoc]

/-- If some eigenvalue is not real, the returned matrix of eigenvectors is singular. -/
theorem rdl_singular_of_complex (hP : IsStochastic fun i j => P i j) (he : e.Sound P)
    (σ : Equiv.Perm (Fin n)) (hdet : e.vectors.det ≠ 0) {j : Fin n} (hj : (e.values j).im ≠ 0) :
    ∃ rdl, rdlDecomposition e σ = .ok rdl ∧ rdl.r.det = 0 := by
  refine ⟨_, rdlDecomposition_eq e σ hdet, ?_⟩
  obtain ⟨V, hV⟩ : ∃ V, V = sortedVectors e σ := ⟨_, rfl⟩
  rw [← hV]
  have hVu : IsUnit V.det := isUnit_iff_ne_zero.2 (hV ▸ sortedVectors_det e σ hdet)
  obtain ⟨u, hu⟩ : ∃ u : Fin n → ℂ, u = V⁻¹.mulVec fun _ => 1 := ⟨_, rfl⟩
  have hVu1 : V.mulVec u = fun _ => 1 := by
    rw [hu, Matrix.mulVec_mulVec, Matrix.mul_nonsing_inv _ hVu, Matrix.one_mulVec]
  -- the coefficient of the constant vector vanishes for eigenvalues other than one
  have hcoef : ∀ a, e.values (σ a) ≠ 1 → u a = 0 := by
    have h1 : V.mulVec (fun a => e.values (σ a) * u a) = V.mulVec u := by
      rw [hVu1]
      funext i
      have h2 : V.mulVec (fun a => e.values (σ a) * u a) i
          = ∑ k, (P i k : ℂ) * V.mulVec u k := by
        have h3 : ∀ k, V.mulVec u k = ∑ a, V k a * u a := fun k => rfl
        have h3' : V.mulVec (fun a => e.values (σ a) * u a) i
            = ∑ a, V i a * (e.values (σ a) * u a) := rfl
        rw [h3']
        simp only [h3, Finset.mul_sum]
        rw [Finset.sum_comm]
        refine Finset.sum_congr rfl fun a _ => ?_
        have h4 := he.1 i (σ a)
        have h5 : ∑ k, (P i k : ℂ) * (V k a * u a) = (∑ k, (P i k : ℂ) * e.vectors k (σ a)) * u a := by
          rw [Finset.sum_mul, hV]
          exact Finset.sum_congr rfl fun k _ => by unfold sortedVectors; ring
        rw [h5, h4, hV]
        unfold sortedVectors
        ring
      rw [h2, hVu1]
      simp only [mul_one]
      have := hP.2 i
      rw [← Complex.ofReal_sum, this, Complex.ofReal_one]
    intro a ha
    have h6 : (fun a => e.values (σ a) * u a) = u := by
      have := congrArg (fun w => V⁻¹.mulVec w) h1
      simpa [Matrix.mulVec_mulVec, Matrix.nonsing_inv_mul _ hVu] using this
    have h7 := congrFun h6 a
    have h8 : (e.values (σ a) - 1) * u a = 0 := by linear_combination h7
    exact (mul_eq_zero.1 h8).resolve_left (sub_ne_zero.2 ha)
  have hsum : ∀ a : Fin n, a.val = 0 → firstColumnSum (V.transpose)⁻¹ = u a := by
    intro a ha
    unfold firstColumnSum
    rw [← Matrix.transpose_nonsing_inv, hu]
    have h1 : V⁻¹.mulVec (fun _ => 1) a = ∑ i, V⁻¹ a i * 1 := rfl
    rw [h1]
    refine Finset.sum_congr rfl fun i _ => ?_
    rw [mul_one, Finset.sum_eq_single a]
    · rw [if_pos ha]; rfl
    · intro b _ hb
      exact if_neg fun h0 => hb (Fin.ext (h0.trans ha.symm))
    · intro h; exact absurd (mem_univ a) h
  have hone : ∀ k, (e.values k).im ≠ 0 → e.values k ≠ 1 := fun k hk h1 => hk (by rw [h1]; simp)
  -- columns of eigenvalues that are not real are not scaled
  have hcol : ∀ i a, (e.values (σ a)).im ≠ 0 →
      scaleFirst (firstColumnSum (V.transpose)⁻¹) (firstColumnSum (V.transpose)⁻¹) V i a = V i a := by
    intro i a ha
    unfold scaleFirst
    split
    · rfl
    · next h1 =>
      split
      · next h2 =>
        exfalso
        apply h1
        rw [hsum a h2, hcoef a (hone _ ha)]
        simp
      · rfl
  obtain ⟨k, hk1, hk2⟩ := he.2.2 j hj
  have hk : (e.values k).im ≠ 0 := by
    rw [hk1, Complex.conj_im]
    exact neg_ne_zero.2 hj
  have hne : σ.symm k ≠ σ.symm j := by
    intro h
    have h1 := σ.symm.injective h
    rw [h1] at hk1
    exact hj (Complex.conj_eq_iff_im.1 hk1.symm)
  refine Matrix.det_zero_of_column_eq hne fun i => ?_
  change (scaleFirst _ _ V i (σ.symm k)).re = (scaleFirst _ _ V i (σ.symm j)).re
  rw [hcol i _ (by rw [Equiv.apply_symm_apply]; exact hk),
    hcol i _ (by rw [Equiv.apply_symm_apply]; exact hj), hV]
  unfold sortedVectors
  rw [Equiv.apply_symm_apply, Equiv.apply_symm_apply, hk2 i, Complex.conj_re]

theorem rdlPower_ne {rdl : Rdl ℝ n} (h : rdl.r.det = 0) (hP : P.det ≠ 0) (t : ℕ) :
    ∃ i j, rdlPower rdl t i j ≠ (P ^ t) i j := by
  by_contra hno
  push Not at hno
  have h1 : rdlPower rdl t = P ^ t := by
    funext i j
    exact hno i j
  have h2 := congrArg Matrix.det h1
  unfold rdlPower at h2
  rw [Matrix.det_mul, Matrix.det_mul, h, zero_mul, zero_mul, Matrix.det_pow] at h2
  exact pow_ne_zero t hP h2.symm

end Decomposition

/-! ## Real eigenvalues: the methods are right at all time points -/

/-- C84. If the matrix of the chain has real eigenvalues and a basis of eigenvectors, as any
reversible chain does, the correlations are right at all time points. -/
theorem C84_real_eigenvalues {c : MC ℝ} (hc : c.Valid) {sccs : List (List (Fin c.n))}
    (h : IsClasses c.p sccs) {e : EigResult c.n} (he : e.Sound c.p) (σ : Equiv.Perm (Fin c.n))
    (hdet : e.vectors.det ≠ 0) (hreal : ∀ j, (e.values j).im = 0)
    {v1 : PyVal ℝ} {v2 : Option (PyVal ℝ)} {vt : PyVal ℝ}
    {s1 : List ℕ} {s2 : Option (List ℕ)} {t : OneOrMany ℕ}
    (h1 : validateSequence v1 c.states = .ok s1) (h2 : optionalSequence v2 c.states = .ok s2)
    (ht : validateTimePoints vt = .ok t) :
    (∃ x, IsStationary c.p x ∧ (∀ y, IsStationary c.p y → y = x) ∧
      timeCorrelations c sccs (rdlDecomposition e σ) v1 v2 vt = .ok (some (t.map
        (timeCorrelation c.p x (visits s1) (visits (s2.getD s1)))))) ∨
    (∃ x y, IsStationary c.p x ∧ IsStationary c.p y ∧ x ≠ y ∧
      timeCorrelations c sccs (rdlDecomposition e σ) v1 v2 vt = .ok none) := by
  obtain ⟨rdl, hr1, hr2⟩ := rdl_sound_of_real he σ hdet hreal
  rw [hr1]
  exact C84_time_correlations_partial hc h h1 h2 ht (.inr hr2)

/-- C85. If the matrix of the chain has real eigenvalues and a basis of eigenvectors, the relaxations
are right at all time points. -/
theorem C85_real_eigenvalues {c : MC ℝ} (hc : c.Valid) {sccs : List (List (Fin c.n))}
    (h : IsClasses c.p sccs) {e : EigResult c.n} (he : e.Sound c.p) (σ : Equiv.Perm (Fin c.n))
    (hdet : e.vectors.det ≠ 0) (hreal : ∀ j, (e.values j).im = 0)
    {v : PyVal ℝ} {vd : Option (PyVal ℝ)} {vt : PyVal ℝ}
    {s : List ℕ} {d : Fin c.n → ℝ} {t : OneOrMany ℕ}
    (h1 : validateSequence v c.states = .ok s) (h2 : initialDistribution c.n vd = .ok d)
    (ht : validateTimePoints vt = .ok t) :
    (∃ x, IsStationary c.p x ∧ (∀ y, IsStationary c.p y → y = x) ∧
      timeRelaxations c sccs (rdlDecomposition e σ) v vd vt = .ok (some (t.map
        (timeRelaxation c.p d (visits s))))) ∨
    (∃ x y, IsStationary c.p x ∧ IsStationary c.p y ∧ x ≠ y ∧
      timeRelaxations c sccs (rdlDecomposition e σ) v vd vt = .ok none) := by
  obtain ⟨rdl, hr1, hr2⟩ := rdl_sound_of_real he σ hdet hreal
  rw [hr1]
  exact C85_time_relaxations_partial hc h h1 h2 ht (.inr hr2)

/-- The eigenvalues and eigenvectors of the symmetric chain with two states. -/
noncomputable def swapEig (q : ℝ) : EigResult 2 where
  values := ![1, ((1 - 2 * q : ℝ) : ℂ)]
  vectors := !![1, 1; 1, -1]

/-- The hypotheses of `C84_real_eigenvalues` and `C85_real_eigenvalues` can be met. -/
example (q : ℝ) (h0 : 0 < q) (h1 : q < 1) : (exSymmetric q).Valid ∧
    IsClasses (exSymmetric q).p [([0, 1] : List (Fin 2))] ∧ (swapEig q).Sound (swapP q) ∧
    (swapEig q).vectors.det ≠ 0 ∧ (∀ j, ((swapEig q).values j).im = 0) ∧
    validateSequence (.list [.int 1, .int 0] : PyVal ℝ) (exSymmetric q).states = .ok [1, 0] ∧
    validateTimePoints (.int 7 : PyVal ℝ) = .ok (.one 7) := by
  have him : ∀ j, ((swapEig q).values j).im = 0 := by
    intro j
    fin_cases j
    · exact Complex.one_im
    · exact Complex.ofReal_im _
  refine ⟨exSymmetric_valid h0.le h1.le, swapP_classes h0 h1, ⟨?_, ?_, fun j hj => absurd (him j) hj⟩, ?_,
    him, rfl, rfl⟩
  · intro i j
    rw [Fin.sum_univ_two]
    fin_cases i <;> fin_cases j <;> simp [swapEig, swapP] <;> ring
  · intro j _ i
    fin_cases i <;> fin_cases j <;> simp [swapEig]
  · rw [Matrix.det_fin_two]
    simp [swapEig]
    norm_num

/-! ## Other eigenvalues: the methods are wrong at large time points -/

theorem validateSequence_pair {n : ℕ} {labels : List String} (hl : labels.length = n) (a : Fin n) :
    validateSequence (.list [.int a.val, .int a.val] : PyVal ℝ) labels = .ok [a.val, a.val] := by
  unfold validateSequence resolveList
  have h1 : resolveInts ([.int a.val, .int a.val] : List (PyVal ℝ)) labels.length
      = .ok [a.val, a.val] := by
    unfold resolveInts
    rw [if_neg]
    · rfl
    · have := a.isLt
      simp only [List.any_cons, List.any_nil, Bool.or_false, Bool.or_self, decide_eq_true_eq]
      change ¬ ((a.val : ℤ) < 0 ∨ (a.val : ℤ) ≥ labels.length)
      omega
  exact h1

theorem initialDistribution_floatVec {n : ℕ} (hn : 0 < n) {d : Fin n → ℝ} (hd : IsDist d) :
    initialDistribution n (some (floatVec d)) = .ok d := by
  have h1 : ∀ i, d i ≤ 1 := fun i => by
    rw [← hd.2]
    exact Finset.single_le_sum (fun k _ => hd.1 k) (mem_univ i)
  have hval : List.map Flt.val (List.ofFn fun i => Flt.fin (d i)) = List.ofFn d := by
    rw [List.map_ofFn]
    rfl
  have h2 : validateVector (floatVec d) .stochastic false (some n) = .ok (List.ofFn d) := by
    unfold validateVector
    rw [if_neg (by simp), R.bind_ok]
    refine ⟨List.ofFn fun i => Flt.fin (d i), ?_, ?_⟩
    · unfold extractVector floatVec extractNumeric ravel
      simp only
      rw [if_neg]
      · rfl
      · rw [List.length_ofFn]; omega
    · rw [if_neg (by simp)]
      unfold checkVector
      rw [if_neg]
      · simp only
        rw [hval, if_neg (by simp), if_neg (by simp), if_neg]
        · rfl
        · rw [List.sum_ofFn, hd.2, isclose_self]
          simp
      · rw [not_not, List.all_eq_true]
        intro x hx
        obtain ⟨i, rfl⟩ := (List.mem_ofFn' _ _).1 hx
        change (decide (0 ≤ d i) && decide (d i ≤ 1)) = true
        rw [decide_eq_true (hd.1 i), decide_eq_true (h1 i)]
        rfl
  unfold initialDistribution
  simp only
  rw [h2, R.ok_bind]
  change Except.ok _ = _
  congr 1
  funext i
  unfold listVec
  simp

theorem sum_pair_visits {n : ℕ} (a : Fin n) (f : Fin n → ℝ) :
    ∑ i, f i * visits [a.val, a.val] i = 2 * f a := by
  rw [Finset.sum_eq_single a]
  · unfold visits
    simp [mul_comm]
  · intro b _ hb
    unfold visits
    have : a.val ≠ b.val := fun h => hb (Fin.ext h).symm
    simp [this]
  · intro h
    exact absurd (mem_univ a) h

theorem correlation_pairs {n : ℕ} (M : Matrix (Fin n) (Fin n) ℝ) (x : Fin n → ℝ) (a b : Fin n) :
    ∑ i, ∑ j, x i * visits [a.val, a.val] i * M i j * visits [b.val, b.val] j
      = 4 * (x a * M a b) := by
  have h1 : ∀ i, ∑ j, x i * visits [a.val, a.val] i * M i j * visits [b.val, b.val] j
      = 2 * x i * M i b * visits [a.val, a.val] i := by
    intro i
    rw [sum_pair_visits]
    ring
  simp only [h1]
  rw [sum_pair_visits]
  ring

/-- C84, disagreement: for every irreducible chain with an invertible matrix that has an eigenvalue
which is not real, and for every time point above the number of states, there are sequences of one
repeated state for which the returned correlation is wrong. Only the real parts of the eigenvalues
and eigenvectors are used. -/
theorem C84_complex_eigenvalues {c : MC ℝ} (hc : c.Valid) {sccs : List (List (Fin c.n))}
    (h : IsClasses c.p sccs) (hirr : Irreducible c.p) (hinv : c.p.det ≠ 0) {e : EigResult c.n}
    (he : e.Sound c.p) (σ : Equiv.Perm (Fin c.n)) (hdet : e.vectors.det ≠ 0) {k : Fin c.n}
    (hk : (e.values k).im ≠ 0) {t : ℕ} (ht : c.n < t) :
    ∃ (a b : Fin c.n) (x : Fin c.n → ℝ) (z : ℝ), IsStationary c.p x ∧
      timeCorrelations c sccs (rdlDecomposition e σ) (.list [.int a.val, .int a.val])
        (some (.list [.int b.val, .int b.val])) (.int t) = .ok (some (.one z)) ∧
      z ≠ timeCorrelation c.p x (visits [a.val, a.val]) (visits [b.val, b.val]) t := by
  obtain ⟨rdl, hr1, hr2⟩ := rdl_singular_of_complex hc.2.1 he σ hdet hk
  obtain ⟨a, b, hab⟩ := rdlPower_ne (P := c.p) hr2 hinv t
  obtain ⟨x, hx1, hx2, hx3, -⟩ := C34_stationary hc h hirr
  have hobs : ∀ s : List ℕ, (observations s : Fin c.n → ℝ) = visits s := fun s =>
    funext fun i => observations_eq s i
  have hlen : c.states.length = c.n := hc.2.2.1
  refine ⟨a, b, x, 4 * (x a * rdlPower rdl t a b), hx2, ?_, ?_⟩
  · unfold timeCorrelations
    have h2 : optionalSequence (some (.list [.int b.val, .int b.val] : PyVal ℝ)) c.states
        = .ok (some [b.val, b.val]) := by
      unfold optionalSequence
      simp only
      rw [validateSequence_pair hlen b]
      rfl
    have h3 : validateTimePoints (.int t : PyVal ℝ) = .ok (.one t) := by
      unfold validateTimePoints
      simp only
      rw [if_neg (by omega)]
      rfl
    rw [validateSequence_pair hlen a, R.ok_bind, h2, R.ok_bind, h3, R.ok_bind, hr1, R.ok_bind]
    unfold mcTimeCorrelations
    rw [hx1, R.ok_bind]
    refine (if_neg (by simp)).trans ?_
    change Except.ok _ = _
    have h4 : secondObservations [a.val, a.val] (some [b.val, b.val])
        = (observations [b.val, b.val] : Fin c.n → ℝ) := rfl
    rw [h4, hobs, hobs]
    unfold correlationsAt
    rw [if_pos (show List.getLastD (OneOrMany.one t).toList 0 > c.n from ht)]
    change Except.ok (some (OneOrMany.one (∑ i, _))) = _
    rw [correlation_mulVec, correlation_pairs]
  · unfold timeCorrelation
    rw [correlation_pairs]
    intro h0
    have h1 := mul_left_cancel₀ (by norm_num) h0
    exact hab (mul_left_cancel₀ (hx3 a).ne' h1)

/-- C85, disagreement: for the same chains and time points there are a sequence of one repeated state
and an initial distribution for which the returned relaxation is wrong. -/
theorem C85_complex_eigenvalues {c : MC ℝ} (hc : c.Valid) {sccs : List (List (Fin c.n))}
    (h : IsClasses c.p sccs) (hirr : Irreducible c.p) (hinv : c.p.det ≠ 0) {e : EigResult c.n}
    (he : e.Sound c.p) (σ : Equiv.Perm (Fin c.n)) (hdet : e.vectors.det ≠ 0) {k : Fin c.n}
    (hk : (e.values k).im ≠ 0) {t : ℕ} (ht : c.n < t) :
    ∃ (b : Fin c.n) (d : Fin c.n → ℝ) (z : ℝ), IsDist d ∧
      timeRelaxations c sccs (rdlDecomposition e σ) (.list [.int b.val, .int b.val])
        (some (floatVec d)) (.int t) = .ok (some (.one z)) ∧
      z ≠ timeRelaxation c.p d (visits [b.val, b.val]) t := by
  obtain ⟨rdl, hr1, hr2⟩ := rdl_singular_of_complex hc.2.1 he σ hdet hk
  obtain ⟨a, b, hab⟩ := rdlPower_ne (P := c.p) hr2 hinv t
  obtain ⟨x, hx1, hx2, hx3, -⟩ := C34_stationary hc h hirr
  have hobs : ∀ s : List ℕ, (observations s : Fin c.n → ℝ) = visits s := fun s =>
    funext fun i => observations_eq s i
  have hlen : c.states.length = c.n := hc.2.2.1
  have hd : IsDist (Pi.single a 1 : Fin c.n → ℝ) := by
    constructor
    · intro i
      by_cases hi : i = a
      · subst hi; simp
      · simp [Pi.single_eq_of_ne hi]
    · simp
  have key : ∀ M : Matrix (Fin c.n) (Fin c.n) ℝ,
      ∑ i, ∑ j, (Pi.single a 1 : Fin c.n → ℝ) i * M i j * visits [b.val, b.val] j = 2 * M a b := by
    intro M
    have h1 : ∀ i, ∑ j, (Pi.single a 1 : Fin c.n → ℝ) i * M i j * visits [b.val, b.val] j
        = 2 * ((Pi.single a 1 : Fin c.n → ℝ) i * M i b) := fun i => sum_pair_visits b _
    simp only [h1]
    rw [Finset.sum_eq_single a]
    · simp
    · intro i _ hi
      simp [Pi.single_eq_of_ne hi]
    · intro h; exact absurd (mem_univ a) h
  refine ⟨b, Pi.single a 1, 2 * rdlPower rdl t a b, hd, ?_, ?_⟩
  · unfold timeRelaxations
    have h3 : validateTimePoints (.int t : PyVal ℝ) = .ok (.one t) := by
      unfold validateTimePoints
      simp only
      rw [if_neg (by omega)]
      rfl
    rw [validateSequence_pair hlen b, R.ok_bind,
      initialDistribution_floatVec (by have := hc.1; omega) hd, R.ok_bind, h3, R.ok_bind, hr1,
      R.ok_bind]
    unfold mcTimeRelaxations
    rw [hx1, R.ok_bind]
    refine (if_neg (by simp)).trans ?_
    change Except.ok _ = _
    rw [hobs]
    unfold relaxationsAt
    rw [if_pos (show List.getLastD (OneOrMany.one t).toList 0 > c.n from ht)]
    change Except.ok (some (OneOrMany.one (∑ i, _))) = _
    rw [relaxation_vecMul, key]
  · unfold timeRelaxation
    rw [key]
    intro h0
    exact hab (mul_left_cancel₀ (by norm_num) h0)

/-! ### Three states in a circle -/

/-- The matrix of the chain that moves through three states in a circle. -/
def turnP : Matrix (Fin 3) (Fin 3) ℝ := !![0, 1, 0; 0, 0, 1; 1, 0, 0]

/-- The chain that moves through three states in a circle. -/
def exTurn : MC ℝ := ⟨3, turnP, ["a", "b", "c"]⟩

/-- A third root of unity. -/
noncomputable def omega : ℂ := ⟨-1 / 2, √3 / 2⟩

theorem omega_sq : omega * omega = (starRingEnd ℂ) omega := by
  have h3 : √3 * √3 = 3 := Real.mul_self_sqrt (by norm_num)
  apply Complex.ext
  · rw [Complex.mul_re, Complex.conj_re]
    change -1 / 2 * (-1 / 2) - √3 / 2 * (√3 / 2) = -1 / 2
    linear_combination (-1 / 4) * h3
  · rw [Complex.mul_im, Complex.conj_im]
    change -1 / 2 * (√3 / 2) + √3 / 2 * (-1 / 2) = -(√3 / 2)
    ring

theorem omega_conj : omega * (starRingEnd ℂ) omega = 1 := by
  have h3 : √3 * √3 = 3 := Real.mul_self_sqrt (by norm_num)
  apply Complex.ext
  · rw [Complex.mul_re, Complex.conj_re, Complex.conj_im, Complex.one_re]
    change -1 / 2 * (-1 / 2) - √3 / 2 * -(√3 / 2) = 1
    linear_combination (1 / 4) * h3
  · rw [Complex.mul_im, Complex.conj_re, Complex.conj_im, Complex.one_im]
    change -1 / 2 * -(√3 / 2) + √3 / 2 * (-1 / 2) = 0
    ring

theorem omega_conj_sq : (starRingEnd ℂ) omega * (starRingEnd ℂ) omega = omega := by
  rw [← map_mul, omega_sq, Complex.conj_conj]

theorem omega_im : omega.im ≠ 0 := by
  change √3 / 2 ≠ 0
  have : (0 : ℝ) < √3 := Real.sqrt_pos.2 (by norm_num)
  positivity

/-- The eigenvalues and eigenvectors of `turnP`. -/
noncomputable def turnEig : EigResult 3 where
  values := ![1, omega, (starRingEnd ℂ) omega]
  vectors := !![1, 1, 1; 1, omega, (starRingEnd ℂ) omega; 1, (starRingEnd ℂ) omega, omega]

theorem turnEig_sound : turnEig.Sound turnP := by
  refine ⟨?_, ?_, ?_⟩
  · intro i j
    rw [Fin.sum_univ_three]
    fin_cases i <;> fin_cases j <;>
      simp [turnP, turnEig, omega_sq, omega_conj, omega_conj_sq, mul_comm _ omega]
  · intro j hj i
    fin_cases j
    · fin_cases i <;> simp [turnEig]
    · exact absurd hj omega_im
    · refine absurd hj ?_
      change ((starRingEnd ℂ) omega).im ≠ 0
      rw [Complex.conj_im]
      exact neg_ne_zero.2 omega_im
  · intro j hj
    fin_cases j
    · exact absurd (by simp [turnEig]) hj
    · refine ⟨2, rfl, fun i => ?_⟩
      fin_cases i <;> simp [turnEig]
    · refine ⟨1, ?_, fun i => ?_⟩
      · change omega = (starRingEnd ℂ) ((starRingEnd ℂ) omega)
        rw [Complex.conj_conj]
      · fin_cases i <;> simp [turnEig]

theorem turnEig_det : turnEig.vectors.det ≠ 0 := by
  have h1 : turnEig.vectors.det = 3 * ((starRingEnd ℂ) omega - omega)  := by
    rw [Matrix.det_fin_three]
    simp only [turnEig, Matrix.of_apply, Matrix.cons_val', Matrix.cons_val_zero, Matrix.cons_val_one,
      Matrix.cons_val]
    linear_combination omega_sq - omega_conj_sq
  rw [h1]
  intro h0
  have h2 := congrArg Complex.im h0
  rw [Complex.mul_im, Complex.sub_im, Complex.conj_im, Complex.sub_re, Complex.conj_re] at h2
  norm_num at h2
  exact omega_im (by linarith)

theorem turnP_stochastic : IsStochastic fun i j : Fin 3 => turnP i j := by
  constructor
  · intro i j
    fin_cases i <;> fin_cases j <;> norm_num [turnP]
  · intro i
    rw [Fin.sum_univ_three]
    fin_cases i <;> simp [turnP]

theorem turnP_irreducible : Irreducible fun i j : Fin 3 => turnP i j := by
  have e : ∀ i : Fin 3, Edge (fun i j : Fin 3 => turnP i j) i (i + 1) := by
    intro i
    fin_cases i <;> exact zero_lt_one' ℝ
  have h1 : ∀ i : Fin 3, Reach (fun i j : Fin 3 => turnP i j) i (i + 1) := fun i => Reach.single (e i)
  have h2 : ∀ i : Fin 3, Reach (fun i j : Fin 3 => turnP i j) i (i + 1 + 1) := fun i =>
    (h1 i).trans (h1 (i + 1))
  intro i j
  have hj : ∀ i j : Fin 3, j = i ∨ j = i + 1 ∨ j = i + 1 + 1 := by decide
  rcases hj i j with h | h | h
  · rw [h]; exact Reach.refl _
  · rw [h]; exact h1 i
  · rw [h]; exact h2 i

theorem turnP_classes : IsClasses (fun i j : Fin 3 => turnP i j) [[0, 1, 2]] := by
  refine ⟨?_, by decide, by decide, by simp, ?_⟩
  · intro i
    refine ⟨_, List.mem_singleton.2 rfl, ?_⟩
    revert i
    decide
  · intro C hC i _ j
    rw [List.mem_singleton.1 hC]
    have hall : ∀ j : Fin 3, j ∈ ([0, 1, 2] : List (Fin 3)) := by decide
    exact ⟨fun _ => ⟨turnP_irreducible i j, turnP_irreducible j i⟩, fun _ => hall j⟩

theorem exTurn_valid : exTurn.Valid := ⟨by decide, turnP_stochastic, by decide⟩

theorem turnP_det : turnP.det ≠ 0 := by
  rw [Matrix.det_fin_three]
  simp [turnP]

/-- C84, disagreement for a concrete chain: three states in a circle, every time point above
three. -/
theorem C84_turn (σ : Equiv.Perm (Fin 3)) {t : ℕ} (ht : 3 < t) : exTurn.Valid ∧
    IsClasses exTurn.p [([0, 1, 2] : List (Fin 3))] ∧ turnEig.Sound turnP ∧
    ∃ (a b : Fin 3) (x : Fin 3 → ℝ) (z : ℝ), IsStationary exTurn.p x ∧
      timeCorrelations exTurn [([0, 1, 2] : List (Fin 3))] (rdlDecomposition turnEig σ)
        (.list [.int a.val, .int a.val]) (some (.list [.int b.val, .int b.val])) (.int t)
        = .ok (some (.one z)) ∧
      z ≠ timeCorrelation turnP x (visits [a.val, a.val]) (visits [b.val, b.val]) t :=
  ⟨exTurn_valid, turnP_classes, turnEig_sound,
    C84_complex_eigenvalues (c := exTurn) exTurn_valid turnP_classes turnP_irreducible turnP_det
      turnEig_sound σ turnEig_det (k := (1 : Fin 3)) omega_im ht⟩

/-- C85, disagreement for the same chain. -/
theorem C85_turn (σ : Equiv.Perm (Fin 3)) {t : ℕ} (ht : 3 < t) : exTurn.Valid ∧
    IsClasses exTurn.p [([0, 1, 2] : List (Fin 3))] ∧ turnEig.Sound turnP ∧
    ∃ (b : Fin 3) (d : Fin 3 → ℝ) (z : ℝ), IsDist d ∧
      timeRelaxations exTurn [([0, 1, 2] : List (Fin 3))] (rdlDecomposition turnEig σ)
        (.list [.int b.val, .int b.val]) (some (floatVec d)) (.int t) = .ok (some (.one z)) ∧
      z ≠ timeRelaxation turnP d (visits [b.val, b.val]) t :=
  ⟨exTurn_valid, turnP_classes, turnEig_sound,
    C85_complex_eigenvalues (c := exTurn) exTurn_valid turnP_classes turnP_irreducible turnP_det
      turnEig_sound σ turnEig_det (k := (1 : Fin 3)) omega_im ht⟩

end Verif
