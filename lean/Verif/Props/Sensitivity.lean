import Verif.Props.Visits
import Mathlib.Algebra.Order.BigOperators.Ring.Finset
import Mathlib.LinearAlgebra.BilinearForm.Orthogonal
import Mathlib.LinearAlgebra.Matrix.ToLin

/-!
# Sensitivity of the stationary distribution (C83)
-/

set_option linter.unusedSectionVars false

namespace Verif

open Finset

variable {K : Type} [Field K] [LinearOrder K] [IsStrictOrderedRing K]

/-- The rows of the system that is handed to `lstsq`. -/
theorem sensitivityMatrix_sum {n : ℕ} (P : Matrix (Fin n) (Fin n) K) (y : Fin (n + 1) → K)
    (i : Fin n) : ∑ k, sensitivityMatrix P i k * y k
      = ∑ j, P i j * y j.castSucc - y i.castSucc + y (Fin.last n) := by
  rw [Fin.sum_univ_castSucc]
  have h1 : ∀ j : Fin n, sensitivityMatrix P i j.castSucc
      = P i j - if i = j then 1 else 0 := by
    intro j
    unfold sensitivityMatrix
    rw [dif_pos (show j.castSucc.val < n from j.2)]
    congr 1
    exact if_congr (by rw [Fin.ext_iff]; rfl) rfl rfl
  have h2 : sensitivityMatrix P i (Fin.last n) = 1 := by
    unfold sensitivityMatrix
    exact dif_neg (by simp)
  rw [h2, one_mul]
  congr 1
  simp only [h1, sub_mul, Finset.sum_sub_distrib]
  simp

/-- The Poisson equation of an irreducible chain is solvable. -/
theorem poisson_solvable {n : ℕ} {P : Matrix (Fin n) (Fin n) K} (hP : IsStochastic P)
    (hirr : Irreducible fun i j => P i j) {x : Fin n → K} (hx : IsStationary P x) (s : Fin n) :
    ∃ y : Fin n → K, ∃ e : K, ∀ i, ∑ j, P i j * y j - y i + e = if i = s then 1 else 0 := by
  obtain ⟨A, hA⟩ : ∃ A : Matrix (Fin n) (Fin n) K, A = fun i j => P i j - (if i = j then 1 else 0)
    - x j := ⟨_, rfl⟩
  have hmul : ∀ (y : Fin n → K) i, A.mulVec y i = ∑ j, P i j * y j - y i - ∑ j, x j * y j := by
    intro y i
    have h1 : A.mulVec y i = ∑ j, A i j * y j := rfl
    rw [h1, hA]
    simp only [sub_mul, Finset.sum_sub_distrib]
    simp
  have hd : A.det ≠ 0 := by
    intro h0
    obtain ⟨y, hy, h1⟩ := Matrix.exists_mulVec_eq_zero_iff.2 h0
    apply hy
    have hrow : ∀ i, ∑ j, P i j * y j - y i - ∑ j, x j * y j = 0 := fun i => by
      rw [← hmul]; exact congrFun h1 i
    have hz : ∑ j, x j * y j = 0 := by
      have h2 : ∑ i, x i * (∑ j, P i j * y j - y i - ∑ j, x j * y j) = 0 :=
        Finset.sum_eq_zero fun i _ => by rw [hrow i, mul_zero]
      simp only [mul_sub, Finset.sum_sub_distrib, ← Finset.sum_mul, hx.1.2, one_mul] at h2
      have h3 : ∑ i, x i * ∑ j, P i j * y j = ∑ j, x j * y j := by
        simp only [Finset.mul_sum]
        rw [Finset.sum_comm]
        refine Finset.sum_congr rfl fun j _ => ?_
        have := hx.2 j
        rw [← this, Finset.sum_mul]
        exact Finset.sum_congr rfl fun i _ => by ring
      rw [h3] at h2
      linarith
    have hh : ∀ i, y i = ∑ j, P i j * y j := fun i => by linarith [hrow i]
    have hconst : y = fun _ => y s := by
      refine harmonic_unique (P := fun i j => P i j) hP (b := fun _ => 0) (B := fun i => i = s)
        (fun i => ⟨s, rfl, hirr i s⟩) (fun i hi => by rw [hi]) (fun i _ => by rw [zero_add]; exact hh i)
        fun i _ => ?_
      rw [zero_add, ← Finset.sum_mul, hP.2 i, one_mul]
    have hs0 : y s = 0 := by
      rw [hconst] at hz
      rw [← Finset.sum_mul, hx.1.2, one_mul] at hz
      exact hz
    rw [hconst, hs0]
    rfl
  have hu : IsUnit A.det := isUnit_iff_ne_zero.2 hd
  refine ⟨A⁻¹.mulVec fun i => if i = s then 1 else 0,
    -∑ j, x j * A⁻¹.mulVec (fun i => if i = s then 1 else 0) j, fun i => ?_⟩
  have h1 : A.mulVec (A⁻¹.mulVec fun i => if i = s then 1 else 0) i = if i = s then 1 else 0 := by
    rw [Matrix.mulVec_mulVec, Matrix.mul_nonsing_inv _ hu, Matrix.one_mulVec]
  rw [hmul] at h1
  rw [← sub_eq_add_neg]
  exact h1

/-- A sound `lstsq` solves the system. -/
theorem lstsq_solves {n : ℕ} {P : Matrix (Fin n) (Fin n) K} (hP : IsStochastic P)
    (hirr : Irreducible fun i j => P i j) {x : Fin n → K} (hx : IsStationary P x)
    {f : Lstsq K n} (hf : f.Sound) (s : Fin n) :
    ∃ e, ∀ i, ∑ j, P i j * f (sensitivityMatrix P) (fun i => if i = s then 1 else 0) j.castSucc
      - f (sensitivityMatrix P) (fun i => if i = s then 1 else 0) i.castSucc + e
      = if i = s then 1 else 0 := by
  obtain ⟨y, e, hy⟩ := poisson_solvable hP hirr hx s
  have h1 := hf (sensitivityMatrix P) (fun i => if i = s then 1 else 0) (Fin.snoc y e)
  have h2 : ∑ i : Fin n, (∑ k, sensitivityMatrix P i k * Fin.snoc (α := fun _ => K) y e k
      - if i = s then 1 else 0) ^ 2 = 0 := by
    refine Finset.sum_eq_zero fun i _ => ?_
    rw [sensitivityMatrix_sum]
    simp only [Fin.snoc_castSucc, Fin.snoc_last]
    rw [hy i, sub_self]
    ring
  rw [h2] at h1
  have h3 := (Finset.sum_eq_zero_iff_of_nonneg fun i _ => sq_nonneg _).1
    (le_antisymm h1 (Finset.sum_nonneg fun i _ => sq_nonneg _))
  refine ⟨f (sensitivityMatrix P) (fun i => if i = s then 1 else 0) (Fin.last n), fun i => ?_⟩
  have h4 := pow_eq_zero_iff (two_ne_zero) |>.1 (h3 i (mem_univ i))
  rw [sensitivityMatrix_sum] at h4
  exact sub_eq_zero.1 h4

/-- The change of a stationary probability, expressed with a solution of the Poisson equation. -/
theorem stationary_change {n : ℕ} {P Q : Fin n → Fin n → K} {x z y : Fin n → K} {e : K} {s : Fin n}
    (hx : IsStationary P x) (hz : IsStationary Q z)
    (hy : ∀ i, ∑ j, P i j * y j - y i + e = if i = s then 1 else 0) :
    z s - x s = -∑ i, ∑ j, z i * (Q i j - P i j) * y j := by
  have pair : ∀ w : Fin n → K, IsDist w →
      w s = ∑ i, ∑ j, w i * P i j * y j - ∑ i, w i * y i + e := by
    intro w hw
    have h1 : w s = ∑ i, w i * if i = s then 1 else 0 := by simp
    rw [h1]
    have h2 : e = ∑ i, w i * e := by rw [← Finset.sum_mul, hw.2, one_mul]
    rw [h2, ← Finset.sum_sub_distrib, ← Finset.sum_add_distrib]
    refine Finset.sum_congr rfl fun i _ => ?_
    rw [← hy i]
    simp only [mul_assoc, ← Finset.mul_sum]
    ring
  have inv : ∀ (w : Fin n → K) (R : Fin n → Fin n → K), IsStationary R w →
      ∑ i, ∑ j, w i * R i j * y j = ∑ i, w i * y i := by
    intro w R hw
    rw [Finset.sum_comm]
    refine Finset.sum_congr rfl fun j _ => ?_
    rw [← Finset.sum_mul]
    rw [hw.2 j]
  have h3 : ∑ i, ∑ j, z i * (Q i j - P i j) * y j
      = ∑ i, ∑ j, z i * Q i j * y j - ∑ i, ∑ j, z i * P i j * y j := by
    rw [← Finset.sum_sub_distrib]
    refine Finset.sum_congr rfl fun i _ => ?_
    rw [← Finset.sum_sub_distrib]
    exact Finset.sum_congr rfl fun j _ => by ring
  rw [h3, inv z Q hz, pair z hz.1, pair x hx.1, inv x P hx]
  ring

/-- C83. For an irreducible chain `sensitivity` returns the matrix of the derivatives of the
stationary probability of the state with respect to the transition probabilities. If `Q` is any
other transition matrix and `z` a stationary distribution of `Q`, the change of the probability of
the state is the sum of the sensitivities times the changes of the transition probabilities, up to
a term of second order; the exact value of the change is given too. -/
theorem C83_sensitivity {c : MC K} (hc : c.Valid) {sccs : List (List (Fin c.n))}
    (h : IsClasses c.p sccs) (hirr : Irreducible c.p) {lstsq : Lstsq K c.n} (hl : lstsq.Sound)
    {v : PyVal K} {s : Fin c.n} (hv : validateLabel v c.states = .ok s.val) :
    ∃ (x : Fin c.n → K) (S : Fin c.n → Fin c.n → K), IsStationary c.p x ∧ (∀ i, 0 < x i) ∧
      sensitivity c sccs lstsq v = .ok (some S) ∧
      (∀ i, ∑ j, S i j * x j = 0) ∧
      (∀ (Q : Fin c.n → Fin c.n → K) (z : Fin c.n → K), IsStochastic Q → IsStationary Q z →
        z s - x s = ∑ i, ∑ j, z i / x i * (S i j * (Q i j - c.p i j))) ∧
      ∃ C, ∀ (Q : Fin c.n → Fin c.n → K) (z : Fin c.n → K), IsStochastic Q → IsStationary Q z →
        |z s - x s - ∑ i, ∑ j, S i j * (Q i j - c.p i j)| ≤ C * (∑ i, ∑ j, |Q i j - c.p i j|) ^ 2 := by
  obtain ⟨x, hx1, hx2, hx3, -⟩ := pi0_spec hc h hirr
  obtain ⟨φ, hφ⟩ : ∃ φ : Fin c.n → Fin c.n → K, φ = fun t j => lstsq (sensitivityMatrix c.p)
    (fun i => if i = t then 1 else 0) j.castSucc := ⟨_, rfl⟩
  have hpois : ∀ t, ∃ e, ∀ i, ∑ j, c.p i j * φ t j - φ t i + e = if i = t then 1 else 0 := by
    intro t
    rw [hφ]
    exact lstsq_solves hc.2.1 hirr hx2 hl t
  obtain ⟨S, hS⟩ : ∃ S : Fin c.n → Fin c.n → K, S = fun i j => -(x i * φ s j) +
    (∑ k, φ s k * x k) * (x i * 1) := ⟨_, rfl⟩
  have hchange : ∀ (Q : Fin c.n → Fin c.n → K) (z : Fin c.n → K), IsStationary Q z → ∀ t,
      z t - x t = -∑ i, ∑ j, z i * (Q i j - c.p i j) * φ t j := by
    intro Q z hz t
    obtain ⟨e, he⟩ := hpois t
    exact stationary_change (P := fun i j => c.p i j) hx2 hz he
  have hrow : ∀ (Q : Fin c.n → Fin c.n → K), IsStochastic Q → ∀ i, ∑ j, (Q i j - c.p i j) = 0 := by
    intro Q hQ i
    rw [Finset.sum_sub_distrib, hQ.2 i]
    exact sub_eq_zero.2 (hc.2.1.2 i).symm
  have hSsum : ∀ (Q : Fin c.n → Fin c.n → K), IsStochastic Q → ∀ i,
      ∑ j, S i j * (Q i j - c.p i j) = -∑ j, x i * (Q i j - c.p i j) * φ s j := by
    intro Q hQ i
    have h1 : ∀ j, S i j * (Q i j - c.p i j) = -(x i * (Q i j - c.p i j) * φ s j)
        + (∑ k, φ s k * x k) * x i * (Q i j - c.p i j) := by
      intro j
      rw [hS]
      ring
    simp only [h1, Finset.sum_add_distrib, Finset.sum_neg_distrib, ← Finset.mul_sum, hrow Q hQ i,
      mul_zero, add_zero]
  refine ⟨x, S, hx2, hx3, ?_, ?_, ?_, ?_⟩
  · unfold sensitivity
    rw [hv]
    change (if h : s.val < c.n then mcSensitivity c sccs lstsq ⟨s.val, h⟩ else throw .valueError) = _
    rw [dif_pos s.2]
    unfold mcSensitivity
    rw [if_neg (by rw [(C30_irreducible hc h).2 hirr]; decide), hx1, hS, hφ]
    rfl
  · intro i
    have h1 : ∀ j, S i j * x j = -(x i * (φ s j * x j)) + (∑ k, φ s k * x k) * x i * x j := by
      intro j
      rw [hS]
      ring
    simp only [h1, Finset.sum_add_distrib, Finset.sum_neg_distrib, ← Finset.mul_sum, hx2.1.2]
    ring
  · intro Q z hQ hz
    rw [hchange Q z hz s, ← Finset.sum_neg_distrib]
    refine Finset.sum_congr rfl fun i _ => ?_
    rw [← Finset.mul_sum, hSsum Q hQ i, mul_neg]
    congr 1
    rw [Finset.mul_sum]
    refine Finset.sum_congr rfl fun j _ => ?_
    have := (hx3 i).ne'
    field_simp
  · obtain ⟨M, hM0, hM⟩ : ∃ M : K, 0 ≤ M ∧ ∀ t j, |φ t j| ≤ M := by
      refine ⟨∑ t, ∑ j, |φ t j|, Finset.sum_nonneg fun t _ => Finset.sum_nonneg fun j _ =>
        abs_nonneg _, fun t j => ?_⟩
      refine le_trans (Finset.single_le_sum (f := fun j => |φ t j|) (fun j _ => abs_nonneg _)
        (mem_univ j)) ?_
      exact Finset.single_le_sum (f := fun t => ∑ j, |φ t j|)
        (fun t _ => Finset.sum_nonneg fun j _ => abs_nonneg _) (mem_univ t)
    have hbound : ∀ (w : Fin c.n → K) (B : K) (D : Fin c.n → Fin c.n → K) (t : Fin c.n),
        (∀ i, |w i| ≤ B) → 0 ≤ B →
        |∑ i, ∑ j, w i * D i j * φ t j| ≤ B * M * ∑ i, ∑ j, |D i j| := by
      intro w B D t hw hB
      refine (Finset.abs_sum_le_sum_abs _ _).trans ?_
      rw [Finset.mul_sum]
      refine Finset.sum_le_sum fun i _ => (Finset.abs_sum_le_sum_abs _ _).trans ?_
      rw [Finset.mul_sum]
      refine Finset.sum_le_sum fun j _ => ?_
      rw [abs_mul, abs_mul]
      calc |w i| * |D i j| * |φ t j| = (|w i| * |φ t j|) * |D i j| := by ring
        _ ≤ (B * M) * |D i j| := mul_le_mul_of_nonneg_right
            (mul_le_mul (hw i) (hM t j) (abs_nonneg _) hB) (abs_nonneg _)
    refine ⟨M * M, fun Q z hQ hz => ?_⟩
    obtain ⟨N, hN⟩ : ∃ N, N = ∑ i, ∑ j, |Q i j - c.p i j| := ⟨_, rfl⟩
    have hN0 : 0 ≤ N := by
      rw [hN]; exact Finset.sum_nonneg fun i _ => Finset.sum_nonneg fun j _ => abs_nonneg _
    have hzx : ∀ t, |z t - x t| ≤ M * N := by
      intro t
      rw [hchange Q z hz t, abs_neg]
      have := hbound z 1 (fun i j => Q i j - c.p i j) t (fun i => by
        rw [abs_of_nonneg (hz.1.1 i), ← hz.1.2]
        exact Finset.single_le_sum (fun k _ => hz.1.1 k) (mem_univ i)) zero_le_one
      rw [one_mul, ← hN] at this
      exact this
    have heq : z s - x s - ∑ i, ∑ j, S i j * (Q i j - c.p i j)
        = -∑ i, ∑ j, (z i - x i) * (Q i j - c.p i j) * φ s j := by
      rw [hchange Q z hz s, Finset.sum_congr rfl fun i _ => hSsum Q hQ i, Finset.sum_neg_distrib,
        neg_sub_neg, ← neg_sub, neg_inj, ← Finset.sum_sub_distrib]
      refine Finset.sum_congr rfl fun i _ => ?_
      rw [← Finset.sum_sub_distrib]
      exact Finset.sum_congr rfl fun j _ => by ring
    rw [heq, abs_neg, ← hN]
    have := hbound (fun i => z i - x i) (M * N) (fun i j => Q i j - c.p i j) s hzx
      (mul_nonneg hM0 hN0)
    rw [← hN] at this
    calc _ ≤ M * N * M * N := this
      _ = M * M * N ^ 2 := by ring

/-- C83. For a chain that is not irreducible `sensitivity` returns `None`. -/
theorem C83_reducible {c : MC K} (hc : c.Valid) {sccs : List (List (Fin c.n))}
    (h : IsClasses c.p sccs) (hirr : ¬ Irreducible c.p) {lstsq : Lstsq K c.n}
    {v : PyVal K} {s : Fin c.n} (hv : validateLabel v c.states = .ok s.val) :
    sensitivity c sccs lstsq v = .ok none := by
  unfold sensitivity
  rw [hv]
  change (if h : s.val < c.n then mcSensitivity c sccs lstsq ⟨s.val, h⟩ else throw .valueError) = _
  rw [dif_pos s.2]
  unfold mcSensitivity
  rw [if_pos]
  · rfl
  · exact Bool.eq_false_iff.2 fun e => hirr ((C30_irreducible hc h).1 e)

/-! ## Least squares -/

/-- The contract of `lstsq` can be met: the range of the matrix has an orthogonal complement. -/
theorem exists_lstsq (n : ℕ) : ∃ f : Lstsq K n, f.Sound := by
  suffices H : ∀ (a : Fin n → Fin (n + 1) → K) (b : Fin n → K), ∃ y : Fin (n + 1) → K,
      ∀ x : Fin (n + 1) → K,
        ∑ i, (∑ k, a i k * y k - b i) ^ 2 ≤ ∑ i, (∑ k, a i k * x k - b i) ^ 2 by
    choose f hf using H
    exact ⟨f, hf⟩
  intro a b
  obtain ⟨B, hB⟩ : ∃ B : LinearMap.BilinForm K (Fin n → K), ∀ u w, B u w = ∑ i, u i * w i :=
    ⟨dotProductBilin K K, fun u w => rfl⟩
  have hrefl : B.IsRefl := fun u w h => by
    rw [hB] at h ⊢
    rw [← h]
    exact Finset.sum_congr rfl fun i _ => mul_comm _ _
  have hcompl : IsCompl (LinearMap.range (Matrix.mulVecLin a))
      (B.orthogonal (LinearMap.range (Matrix.mulVecLin a))) := by
    rw [LinearMap.BilinForm.isCompl_orthogonal_iff_disjoint hrefl, Submodule.disjoint_def]
    intro u hu hu2
    have h1 := hu2 u hu
    rw [hB] at h1
    funext i
    have := (Finset.sum_eq_zero_iff_of_nonneg fun i _ => mul_self_nonneg (u i)).1 h1 i (mem_univ i)
    exact mul_self_eq_zero.1 this
  have hb : b ∈ LinearMap.range (Matrix.mulVecLin a) ⊔
      B.orthogonal (LinearMap.range (Matrix.mulVecLin a)) := by
    rw [hcompl.sup_eq_top]; trivial
  obtain ⟨u, ⟨y, hy⟩, w, hw, hbw⟩ := Submodule.mem_sup.1 hb
  refine ⟨y, fun x => ?_⟩
  have hu : ∀ i, u i = ∑ k, a i k * y k := fun i => by rw [← hy]; rfl
  have horth : ∑ i, (∑ k, a i k * (x k - y k)) * w i = 0 := by
    have h1 := hw (Matrix.mulVecLin a fun k => x k - y k) ⟨_, rfl⟩
    rw [hB] at h1
    exact h1
  have hbi : ∀ i, b i = ∑ k, a i k * y k + w i := fun i => by
    rw [← hbw, Pi.add_apply, hu]
  have h2 : ∀ i, (∑ k, a i k * x k - b i) ^ 2 = (∑ k, a i k * (x k - y k)) ^ 2
      - 2 * ((∑ k, a i k * (x k - y k)) * w i) + (∑ k, a i k * y k - b i) ^ 2 := by
    intro i
    rw [hbi i]
    simp only [mul_sub, Finset.sum_sub_distrib]
    ring
  simp only [h2, Finset.sum_add_distrib, Finset.sum_sub_distrib, ← Finset.mul_sum, horth]
  have := Finset.sum_nonneg fun i (_ : i ∈ univ) => sq_nonneg (∑ k, a i k * (x k - y k))
  linarith

/-- The hypotheses of `C83_sensitivity` are met. -/
example : ∃ lstsq : Lstsq ℚ 2, lstsq.Sound ∧ exLoop.Valid ∧
    IsClasses (fun i j : Fin 2 => exLoop.p i j) [[0, 1]] ∧
    Irreducible (fun i j : Fin 2 => exLoop.p i j) ∧
    (validateLabel (.str "b" : PyVal ℚ) exLoop.states).toOption = some (1 : Fin 2).val := by
  obtain ⟨f, hf⟩ := exists_lstsq (K := ℚ) 2
  exact ⟨f, hf, by decide +kernel, by decide +kernel, by decide +kernel, by decide +kernel⟩

/-- The hypotheses of `C83_reducible` are met. -/
example : exDrunkard.Valid ∧ IsClasses (fun i j : Fin 3 => exDrunkard.p i j) [[0], [1], [2]] ∧
    ¬ Irreducible (fun i j : Fin 3 => exDrunkard.p i j) ∧
    (validateLabel (.str "m" : PyVal ℚ) exDrunkard.states).toOption = some (1 : Fin 3).val := by
  refine ⟨by decide +kernel, by decide +kernel, by decide +kernel, by decide +kernel⟩

end Verif
