import Verif.Props.KemenySpectrum
import Verif.Props.Passage
import Verif.Lemmas.Spectral
import Mathlib.LinearAlgebra.Matrix.SchurComplement

/-!
# C163: the mean time to reach a random target

`mean_first_passage_times_to` (`measures.py:348-378`) of an ergodic chain gives the matrix of the mean first
passage times. Its rows, weighted with `pi`, have the same sum, Kemeny's constant of an ergodic chain, which is the
sum of `1 / (1 - λ)` over the eigenvalues other than one.
-/

namespace Verif

open Finset Polynomial

set_option linter.unusedSectionVars false

/-- Moving the eigenvalue one of a stochastic matrix to zero. -/
theorem charpoly_deflate {n : ℕ} [NeZero n] {P : Matrix (Fin n) (Fin n) ℝ} (hP : ∀ i, ∑ j, P i j = 1)
    {v : Fin n → ℝ} (hv : ∑ j, v j = 1) :
    (X - C 1) * (P - tile v).charpoly = X * P.charpoly := by
  refine Polynomial.funext fun x => ?_
  rw [eval_mul, eval_mul, Matrix.eval_charpoly, Matrix.eval_charpoly, eval_sub, eval_X, eval_C]
  by_cases hx : x = 1
  · subst hx
    have h1 : (Matrix.scalar (Fin n) (1 : ℝ) - P).det = 0 := by
      refine Matrix.exists_mulVec_eq_zero_iff.1 ⟨fun _ => 1, fun h => one_ne_zero (congrFun h 0), ?_⟩
      funext i
      have h2 : ∑ j, (1 : Matrix (Fin n) (Fin n) ℝ) i j = 1 := by simp [Matrix.one_apply]
      simp [Matrix.mulVec, dotProduct, hP i, h2]
    rw [h1, sub_self, zero_mul, mul_zero]
  · have hx' : x - 1 ≠ 0 := sub_ne_zero.2 hx
    have h1 : Matrix.scalar (Fin n) x - (P - tile v) = (Matrix.scalar (Fin n) x - P) *
        (1 + Matrix.replicateCol Unit (fun _ => (x - 1)⁻¹) * Matrix.replicateRow Unit v) := by
      rw [mul_add, mul_one, ← sub_add, ← Matrix.mul_assoc]
      congr 1
      ext i j
      rw [Matrix.mul_apply]
      simp only [Finset.univ_unique, Finset.sum_singleton, Matrix.replicateRow_apply]
      have h2 : ((Matrix.scalar (Fin n) x - P) * Matrix.replicateCol Unit (fun _ => (x - 1)⁻¹) :
          Matrix (Fin n) Unit ℝ) i default = 1 := by
        rw [Matrix.mul_apply]
        simp only [Matrix.replicateCol_apply, ← Finset.sum_mul, Matrix.sub_apply, Finset.sum_sub_distrib, hP i]
        simp [Matrix.scalar_apply, Matrix.diagonal_apply, hx']
      rw [h2, one_mul]
      rfl
    rw [h1, Matrix.det_mul, Matrix.det_one_add_replicateCol_mul_replicateRow]
    have h3 : v ⬝ᵥ (fun _ => (x - 1)⁻¹) = (x - 1)⁻¹ := by
      simp only [dotProduct, ← Finset.sum_mul, hv, one_mul]
    rw [h3]
    field_simp
    ring

/-- One is a simple eigenvalue of an ergodic chain: the other eigenvalues and zero are those of `P - A`, with the
stationary distribution in all rows of `A`. -/
theorem spectrum_deflate {n : ℕ} [NeZero n] {P : Matrix (Fin n) (Fin n) ℝ} (hP : ∀ i, ∑ j, P i j = 1)
    {v : Fin n → ℝ} (hv : ∑ j, v j = 1) (hd : (1 - P + tile v).det ≠ 0) :
    (open scoped Classical in 0 ::ₘ (spectrumOf P).filter (· ≠ 1)) =
      ((P - tile v).charpoly.map Complex.ofRealHom).roots ∧
    ((P - tile v).charpoly.map Complex.ofRealHom).eval 1 ≠ 0 := by
  classical
  obtain ⟨q, hq⟩ : ∃ q, q = (P - tile v).charpoly.map Complex.ofRealHom := ⟨_, rfl⟩
  obtain ⟨r, hr⟩ : ∃ r, r = P.charpoly.map Complex.ofRealHom := ⟨_, rfl⟩
  have hqm : q.Monic := hq ▸ (Matrix.charpoly_monic _).map _
  have hrm : r.Monic := hr ▸ (Matrix.charpoly_monic _).map _
  have hne : q.eval 1 ≠ 0 := by
    have h1 : q.eval 1 = ((1 - P + tile v).det : ℝ) := by
      rw [hq, eval_map, ← Complex.ofRealHom_eq_coe]
      have h2 : ((P - tile v).charpoly.eval 1) = (1 - P + tile v).det := by
        rw [Matrix.eval_charpoly, map_one, sub_sub_eq_add_sub, sub_add_eq_add_sub]
      rw [← h2]
      have h3 : (1 : ℂ) = Complex.ofRealHom 1 := by simp
      rw [h3, eval₂_at_apply]
    rw [h1]
    exact_mod_cast hd
  have h1 : (X - C 1) * q = X * r := by
    have h2 := congrArg (Polynomial.map Complex.ofRealHom) (charpoly_deflate hP hv)
    rw [Polynomial.map_mul, Polynomial.map_mul, ← hq, ← hr] at h2
    simpa using h2
  have h3 := congrArg Polynomial.roots h1
  rw [roots_mul (mul_ne_zero (X_sub_C_ne_zero 1) hqm.ne_zero), roots_mul (mul_ne_zero X_ne_zero hrm.ne_zero),
    roots_X_sub_C, roots_X] at h3
  have h4 := congrArg (Multiset.filter (· ≠ (1 : ℂ))) h3
  rw [Multiset.filter_add, Multiset.filter_add] at h4
  have h5 : Multiset.filter (· ≠ (1 : ℂ)) q.roots = q.roots :=
    Multiset.filter_eq_self.2 fun z hz e => hne (by
      rw [← e]
      exact (mem_roots'.1 hz).2)
  rw [h5] at h4
  refine ⟨?_, hq ▸ hne⟩
  rw [← hq, spectrumOf, ← hr]
  have h6 : Multiset.filter (· ≠ (1 : ℂ)) {0} = {0} :=
    Multiset.filter_eq_self.2 fun z hz => by
      rw [Multiset.mem_singleton.1 hz]
      exact zero_ne_one
  have h7 : Multiset.filter (· ≠ (1 : ℂ)) {1} = 0 :=
    Multiset.filter_eq_nil.2 fun z hz => by simpa using hz
  rw [h6, h7, zero_add] at h4
  rw [h4]
  exact (Multiset.singleton_add _ _).symm

/-- C163. -/
theorem C163_random_target {c : MC ℝ} (hc : c.Valid) {nx : Nx c.n} (hx : nx.Sound c.p) (he : Ergodic c.p) :
    ∃ m x k, mfptAll c nx = .ok (some m) ∧ IsStationary c.p x ∧ (∀ i, ∑ j, x j * m i j = k) ∧
      (open scoped Classical in
        (k : ℂ) = (((spectrumOf c.p).filter (· ≠ 1)).map fun z => 1 / (1 - z)).sum ∧
        ((spectrumOf c.p).filter (· ≠ 1)).card = c.n - 1) := by
  classical
  have : NeZero c.n := ⟨by have := hc.1; omega⟩
  obtain ⟨m, hm, -, -, hm1⟩ := C44_all_states hc hx he
  obtain ⟨x, hx1, hx2, hx3, -⟩ := pi0_spec hc hx.sccs he.1
  obtain ⟨z, hz1, hz2⟩ := ergodic_fundamental hc.2.1 he.1 hx2
  have hd := fundamental_det hc.2.1 he.1 hx2
  have hz : z = (1 - c.p + tile x)⁻¹ := by
    unfold npInv at hz1
    rw [if_neg hd] at hz1
    exact (Option.some.inj hz1).symm
  have hu : IsUnit (1 - c.p + tile x).det := isUnit_iff_ne_zero.2 hd
  have hr : ∀ i, ∑ j, c.p i j = 1 := hc.2.1.2
  have hxs : ∑ j, x j = 1 := hx2.1.2
  have hmz : ∀ i j, m i j = (z j j - z i j) / x j := by
    intro i j
    have h1 : IsPassageTime c.p (· = j) fun i => (z j j - z i j) / x j := by
      refine ⟨fun i (hi : i = j) => by simp [hi], fun i hi => ?_⟩
      have h2 : ∑ k, c.p i k * ((z j j - z k j) / x j) = (z j j - (z i j + x j)) / x j := by
        simp only [mul_div_assoc', ← Finset.sum_div, mul_sub, Finset.sum_sub_distrib, ← Finset.sum_mul]
        rw [hr i, hz2 i j, Matrix.one_apply_ne hi]
        ring
      rw [h2]
      have := (hx3 j).ne'
      field_simp
      ring
    exact (congrFun ((hm1 j _).1 h1) i).symm
  have hrow : ∀ i, ∑ j, z i j = 1 := by
    have h1 : (1 - c.p + tile x).mulVec (fun _ => 1) = fun _ => 1 := by
      funext i
      have h2 : ∑ j, (1 : Matrix (Fin c.n) (Fin c.n) ℝ) i j = 1 := by simp [Matrix.one_apply]
      simp only [Matrix.mulVec, dotProduct, mul_one, Matrix.add_apply, Matrix.sub_apply, Finset.sum_add_distrib,
        Finset.sum_sub_distrib, hr i, h2, sub_self, zero_add]
      exact hxs
    have h3 : z.mulVec (fun _ => 1) = fun _ => 1 := by
      conv_lhs => rw [← h1]
      rw [Matrix.mulVec_mulVec, hz, Matrix.nonsing_inv_mul _ hu, Matrix.one_mulVec]
    intro i
    have := congrFun h3 i
    simpa [Matrix.mulVec, dotProduct] using this
  obtain ⟨hsp, hne⟩ := spectrum_deflate hr hxs hd
  obtain ⟨Q, hQ⟩ : ∃ Q, Q = c.p - tile x := ⟨_, rfl⟩
  obtain ⟨q, hq⟩ : ∃ q, q = Q.charpoly.map Complex.ofRealHom := ⟨_, rfl⟩
  rw [← hQ, ← hq] at hsp hne
  have hsplit : q.Splits := IsAlgClosed.splits q
  have hinv : (1 - Q) * z = 1 := by
    rw [hQ, sub_sub_eq_add_sub, add_sub_right_comm, hz, Matrix.mul_nonsing_inv _ hu]
  have hev : q.eval 1 = ((Q.charpoly.eval 1 : ℝ) : ℂ) := by
    rw [hq]
    simp
  have hder : (derivative q).eval 1 = q.eval 1 * ((∑ i, z i i : ℝ) : ℂ) := by
    have h5 := derivative_charpoly_one hinv
    have h6 : (derivative q).eval 1 = (((derivative Q.charpoly).eval 1 : ℝ) : ℂ) := by
      rw [hq, derivative_map]
      simp
    rw [h6, h5, hev]
    push_cast
    simp [Matrix.trace]
  refine ⟨m, x, ∑ i, z i i - 1, hm, hx2, fun i => ?_, ?_, ?_⟩
  · rw [← hrow i, ← Finset.sum_sub_distrib]
    refine Finset.sum_congr rfl fun j _ => ?_
    rw [hmz, mul_div_cancel₀ _ (hx3 j).ne']
  · have h7 := hsplit.eval_derivative_div_eval_of_ne_zero hne
    rw [hder, mul_div_cancel_left₀ _ hne, ← hsp, Multiset.map_cons, Multiset.sum_cons] at h7
    push_cast at h7 ⊢
    rw [h7]
    simp
  · have h8 := congrArg Multiset.card hsp
    rw [Multiset.card_cons, ← hsplit.natDegree_eq_card_roots, hq, (Matrix.charpoly_monic Q).natDegree_map,
      Matrix.charpoly_natDegree_eq_dim, Fintype.card_fin] at h8
    have h9 : Multiset.card ((spectrumOf c.p).filter (· ≠ 1)) + 1 = c.n := by convert h8
    omega

/-- The eigenvalues of a stochastic matrix have modulus at most one. -/
theorem spectrum_norm_le {n : ℕ} {P : Matrix (Fin n) (Fin n) ℝ} (hP : IsStochastic fun i j => P i j) {z : ℂ}
    (hz : z ∈ spectrumOf P) : ‖z‖ ≤ 1 := by
  have h1 : z ∈ (P.map (algebraMap ℝ ℂ)).charpoly.roots := by
    rw [Matrix.charpoly_map]
    exact hz
  obtain ⟨v, hv, h⟩ := exists_eigenvector h1
  exact eigen_norm_le hP hv h

/-- On the closed unit disc the real part of `1 / (1 - z)` is at least a half. -/
theorem half_le_re {z : ℂ} (h1 : ‖z‖ ≤ 1) (h2 : z ≠ 1) : 1 / 2 ≤ (1 / (1 - z)).re := by
  have h3 : 0 < Complex.normSq (1 - z) := Complex.normSq_pos.2 (sub_ne_zero.2 (Ne.symm h2))
  have h4 : Complex.normSq z ≤ 1 := by
    rw [Complex.normSq_eq_norm_sq]
    nlinarith [norm_nonneg z]
  rw [one_div (1 - z), Complex.inv_re, le_div_iff₀ h3]
  rw [Complex.normSq_apply] at h4 ⊢
  simp only [Complex.sub_re, Complex.one_re, Complex.sub_im, Complex.one_im]
  nlinarith

/-- C163, lower bound: from any state, the mean time to reach a random target is at least `(n - 1) / 2`. -/
theorem C163_lower {c : MC ℝ} (hc : c.Valid) {nx : Nx c.n} (hx : nx.Sound c.p) (he : Ergodic c.p) :
    ∃ m x, mfptAll c nx = .ok (some m) ∧ IsStationary c.p x ∧
      ∀ i, ((c.n : ℝ) - 1) / 2 ≤ ∑ j, x j * m i j := by
  classical
  obtain ⟨m, x, k, h1, h2, h3, h4, h5⟩ := C163_random_target hc hx he
  refine ⟨m, x, h1, h2, fun i => ?_⟩
  rw [h3 i]
  have h6 : k = ((((spectrumOf c.p).filter (· ≠ 1)).map fun z => 1 / (1 - z)).map Complex.reLm).sum := by
    rw [← map_multiset_sum]
    have h7 := congrArg Complex.re h4
    rw [Complex.ofReal_re] at h7
    rw [h7]
    congr!
  have h8 : ∀ s : Multiset ℂ, (∀ z ∈ s, (1 : ℝ) / 2 ≤ (1 / (1 - z)).re) →
      (s.card : ℝ) / 2 ≤ ((s.map fun z => 1 / (1 - z)).map Complex.reLm).sum := by
    intro s
    refine Multiset.induction_on s (by simp) fun a s ih h => ?_
    rw [Multiset.map_cons, Multiset.map_cons, Multiset.sum_cons, Multiset.card_cons]
    have h9 := ih fun z hz => h z (Multiset.mem_cons_of_mem hz)
    have h10 : (1 : ℝ) / 2 ≤ Complex.reLm (1 / (1 - a)) := h a (Multiset.mem_cons_self a s)
    push_cast
    linarith
  have h11 := h8 ((spectrumOf c.p).filter (· ≠ 1)) fun z hz =>
    half_le_re (spectrum_norm_le hc.2.1 (Multiset.mem_filter.1 hz).1) (Multiset.mem_filter.1 hz).2
  rw [← h6] at h11
  have h12 : Multiset.card ((spectrumOf c.p).filter (· ≠ 1)) = c.n - 1 := by convert h5
  rw [h12, Nat.cast_sub (by have := hc.1; omega), Nat.cast_one] at h11
  exact h11

/-- Ergodicity depends only on which transitions are possible. -/
theorem toReal_ergodic {c : MC ℚ} (h : Ergodic fun i j => c.p i j) : Ergodic fun i j => c.toReal.p i j := by
  have h1 : ∀ k i j, ReachIn (fun i j => c.toReal.p i j) k i j ↔ ReachIn (fun i j => c.p i j) k i j := by
    intro k i j
    constructor
    · intro h
      induction h with
      | refl i => exact .refl i
      | step _ e ih => exact .step ih ((toReal_edge _ _).1 e)
    · intro h
      induction h with
      | refl i => exact .refl i
      | step _ e ih => exact .step ih ((toReal_edge _ _).2 e)
  refine ⟨toReal_irreducible h.1, fun i => ⟨fun k hk => (h.2 i).1 k ((h1 k i i).1 hk), fun e he => ?_⟩⟩
  exact (h.2 i).2 e fun k hk => he k ((h1 k i i).2 hk)

/-- The hypotheses are met by the chain on two states that leaves the first at once and the second with
probability one half. -/
example (b : Bool) : ∃ m x k, mfptAll exLoop.toReal
    (Nx.ofClasses (n := 2) (fun i j => exLoop.toReal.p i j) [[0, 1]] b) = .ok (some m) ∧
    IsStationary exLoop.toReal.p x ∧ (∀ i : Fin 2, ∑ j, x j * m i j = k) ∧ (1 : ℝ) / 2 ≤ k := by
  have hv : exLoop.Valid := by decide +kernel
  have hcl : IsClasses (fun i j : Fin 2 => exLoop.p i j) [[0, 1]] := by decide +kernel
  have he := (isErgodic_iff hv (Nx.ofClasses_sound true hcl)).1 (by decide +kernel)
  have hcl' := toReal_isClasses (c := exLoop) hcl
  have hs := Nx.ofClasses_sound b hcl'
  obtain ⟨m, x, k, h1, h2, h3, -⟩ := C163_random_target (toReal_valid hv) hs (toReal_ergodic he)
  obtain ⟨m', x', h1', h2', h3'⟩ := C163_lower (toReal_valid hv) hs (toReal_ergodic he)
  obtain ⟨y, -, -, -, hy⟩ := pi0_spec (toReal_valid hv) hs.sccs (toReal_ergodic he).1
  have e1 : m' = m := Option.some.inj (Except.ok.inj (h1'.symm.trans h1))
  have e2 : x' = x := (hy x' h2').trans (hy x h2).symm
  subst e1 e2
  refine ⟨m', x', k, h1, h2, h3, ?_⟩
  have := (h3' (0 : Fin 2)).trans_eq (h3 (0 : Fin 2))
  have e3 : ((exLoop.toReal.n : ℕ) : ℝ) = 2 := by
    change ((2 : ℕ) : ℝ) = 2
    norm_num
  rw [e3] at this
  linarith

end Verif
