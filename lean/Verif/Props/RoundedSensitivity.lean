import Verif.Model.RoundedSensitivity
import Verif.Props.RoundedPassage
import Verif.Props.Sensitivity

/-!
# Sensitivity of the stationary distribution with inexact least squares

C176: the sensitivities are products of stationary probabilities and differences of mean first passage times, also
approximately when the least squares problem is solved inexactly.
-/

namespace Verif

variable {K : Type} [Field K] [LinearOrder K] [IsStrictOrderedRing K]

open Finset

/-- An approximate solution of the equations consists of mean first passage times up to a factor and a constant. -/
theorem poisson_passage {n : ℕ} {P : Fin n → Fin n → K} (hP : IsStochastic P) {x : Fin n → K} (hx : IsStationary P x)
    {s : Fin n} (hreach : ∀ i, Reach P i s) {m : Fin n → K} (hm : IsPassageTime P (· = s) m) {y : Fin n → K} {l r : K}
    (hy : ∀ i, |∑ k, P i k * y k - y i + l - (if i = s then 1 else 0)| ≤ r) (i : Fin n) :
    |y i - y s - x s * m i| ≤ 2 * r * m i := by
  have hB : ∀ i, ∃ b, b = s ∧ Reach P i b := fun i => ⟨s, rfl, hreach i⟩
  have hr0 : 0 ≤ r := (abs_nonneg _).trans (hy s)
  have hl : |l - x s| ≤ r := by
    have h1 : ∑ i, x i * (∑ k, P i k * y k - y i + l - (if i = s then 1 else 0)) = l - x s := by
      have h2 : ∑ i, x i * ∑ k, P i k * y k = ∑ k, x k * y k := by
        simp only [mul_sum]
        rw [sum_comm]
        refine sum_congr rfl fun k _ => ?_
        rw [← hx.2 k, sum_mul]
        exact sum_congr rfl fun i _ => by ring
      simp only [mul_sub, mul_add, sum_sub_distrib, sum_add_distrib, h2, ← sum_mul, hx.1.2]
      simp
    rw [← h1]
    refine (abs_sum_le_sum_abs _ _).trans ?_
    have h3 : ∑ i, x i * r = r := by rw [← sum_mul, hx.1.2, one_mul]
    rw [← h3]
    refine sum_le_sum fun i _ => ?_
    rw [abs_mul, abs_of_nonneg (hx.1.1 i)]
    exact mul_le_mul_of_nonneg_left (hy i) (hx.1.1 i)
  have key : ∀ t : K, (t = 1 ∨ t = -1) → ∀ i, 0 ≤ 2 * r * m i + t * (y i - y s - x s * m i) := by
    intro t ht
    refine min_principle hP hB (fun i hi => ?_) (fun i hi => ?_)
    · rw [hm.1 i hi, hi]
      simp
    · have h1 := hy i
      rw [if_neg hi, sub_zero] at h1
      have h2 := abs_le.1 h1
      have h3 := abs_le.1 hl
      have h4 := hm.2 i hi
      have e : ∑ k, P i k * (2 * r * m k + t * (y k - y s - x s * m k)) = 2 * r * (∑ k, P i k * m k) +
          t * (∑ k, P i k * y k) - t * y s * (∑ k, P i k) - t * x s * ∑ k, P i k * m k := by
        simp only [mul_sum, ← sum_add_distrib, ← sum_sub_distrib]
        exact sum_congr rfl fun k _ => by ring
      rw [e, hP.2 i]
      have h5 : ∑ k, P i k * m k = m i - 1 := by rw [h4]; ring
      rw [h5]
      rcases ht with rfl | rfl <;> linarith
  rw [abs_le]
  have h3 := key 1 (Or.inl rfl) i
  have h4 := key (-1) (Or.inr rfl) i
  constructor <;> linarith

/-- The combination of the solution that the program computes. -/
theorem poisson_combination {n : ℕ} {P : Fin n → Fin n → K} (hP : IsStochastic P) {x : Fin n → K} (hx : IsStationary P x)
    {s : Fin n} (hreach : ∀ i, Reach P i s) {m : Fin n → K} (hm : IsPassageTime P (· = s) m) {y : Fin n → K} {l r : K}
    (hy : ∀ i, |∑ k, P i k * y k - y i + l - (if i = s then 1 else 0)| ≤ r) (i j : Fin n) :
    |x i * (∑ k, y k * x k - y j) - x i * x s * (∑ k, x k * m k - m j)| ≤ x i * (2 * r * (m j + ∑ k, x k * m k)) := by
  have h := poisson_passage hP hx hreach hm hy
  have e : x i * (∑ k, y k * x k - y j) - x i * x s * (∑ k, x k * m k - m j) =
      x i * (∑ k, x k * (y k - y s - x s * m k) - (y j - y s - x s * m j)) := by
    have h1 : ∑ k, x k * (y k - y s - x s * m k) = ∑ k, y k * x k - y s * ∑ k, x k - x s * ∑ k, x k * m k := by
      simp only [mul_sum, ← sum_sub_distrib]
      exact sum_congr rfl fun k _ => by ring
    rw [h1, hx.1.2]
    ring
  rw [e, abs_mul, abs_of_nonneg (hx.1.1 i)]
  refine mul_le_mul_of_nonneg_left ?_ (hx.1.1 i)
  have h1 : |∑ k, x k * (y k - y s - x s * m k)| ≤ 2 * r * ∑ k, x k * m k := by
    rw [mul_sum]
    refine (abs_sum_le_sum_abs _ _).trans (sum_le_sum fun k _ => ?_)
    rw [abs_mul, abs_of_nonneg (hx.1.1 k)]
    have := mul_le_mul_of_nonneg_left (h k) (hx.1.1 k)
    linarith
  have h2 := abs_sub (∑ k, x k * (y k - y s - x s * m k)) (y j - y s - x s * m j)
  linarith [h j]

/-- C176. **Sensitivities are differences of mean first passage times** (Cho and Meyer): a probability to move from `i` to
a state that is closer to `s` than the average makes `s` more likely. -/
theorem C176_formula {c : MC K} (hc : c.Valid) {sccs : List (List (Fin c.n))} (h : IsClasses c.p sccs)
    (hirr : Irreducible c.p) {lstsq : Lstsq K c.n} (hl : lstsq.Sound) {s : Fin c.n} {S : Fin c.n → Fin c.n → K}
    (hS : mcSensitivity c sccs lstsq s = .ok (some S)) {x m : Fin c.n → K} (hx : IsStationary c.p x)
    (hm : IsPassageTime (fun i j => c.p i j) (· = s) m) (i j : Fin c.n) :
    S i j = x i * x s * (∑ k, x k * m k - m j) := by
  have hP : IsStochastic fun i j => c.p i j := hc.2.1
  obtain ⟨z, hz1, hz2, -, hz4⟩ := pi0_spec hc h hirr
  have hzx : z = x := (hz4 x hx).symm
  unfold mcSensitivity at hS
  split at hS
  · rw [R.pure_ok] at hS
    cases hS
  rw [hz1, R.ok_bind, R.pure_ok, Option.some.injEq] at hS
  obtain ⟨l, hφ⟩ := lstsq_solves hc.2.1 hirr hx hl s
  have h1 := poisson_combination hP hx (fun i => hirr i s) hm (r := 0) (l := l)
    (y := fun j => lstsq (sensitivityMatrix c.p) (fun i => if i = s then 1 else 0) j.castSucc) (fun i => by
      have := sub_eq_zero.2 (hφ i)
      exact (abs_eq_zero.2 this).le) i j
  rw [mul_zero, zero_mul, mul_zero] at h1
  have h2 := sub_eq_zero.1 (abs_nonpos_iff.1 h1)
  rw [← h2, ← hS, hzx]
  dsimp only
  ring

/-- The residual of a least squares solution is small compared with the norms. -/
def Lstsq.StableAt {n : ℕ} (f : Lstsq K n) (a : Fin n → Fin (n + 1) → K) (b : Fin n → K) (e : K) : Prop :=
  ∀ N X, (∀ i, ∑ k, |a i k| ≤ N) → (∀ k, |f a b k| ≤ X) → ∀ i, |∑ k, a i k * f a b k - b i| ≤ e * (N * X)

/-- A row of the computed matrix. -/
theorem sensitivity_row_error {fl : K → K} {u δ e : K} (hr : Rounds fl u δ e) {n : ℕ} {M P : Matrix (Fin n) (Fin n) K}
    (hP : IsStochastic fun i j => P i j) (hM : RoundedFrom δ M P) (i : Fin n) :
    ∑ k, |sensitivityMatrixF fl M i k - sensitivityMatrix P i k| ≤ 3 * u + δ := by
  have hu := hr.unit
  have hδ := hr.data
  rw [Fin.sum_univ_castSucc]
  have h1 : ∀ k : Fin n, |sensitivityMatrixF fl M i k.castSucc - sensitivityMatrix P i k.castSucc| ≤
      u * ((if i = k then 1 else 0) + P i k) + (u + 1) * (δ * P i k) := fun k => by
    unfold sensitivityMatrixF sensitivityMatrix
    rw [dif_pos (show k.castSucc.val < n from k.2), dif_pos (show k.castSucc.val < n from k.2)]
    have e1 : (if i.val = k.castSucc.val then (1 : K) else 0) = if i = k then 1 else 0 :=
      if_congr (by rw [Fin.ext_iff]; rfl) rfl rfl
    rw [e1]
    change |fl (M i k - if i = k then 1 else 0) - (P i k - if i = k then 1 else 0)| ≤ _
    obtain ⟨a, ha⟩ : ∃ a : K, a = if i = k then 1 else 0 := ⟨_, rfl⟩
    have ha0 : 0 ≤ a := by rw [ha]; split_ifs <;> norm_num
    rw [← ha]
    have h2 := entry_error (fl := fun z => -fl (-z)) (a := a) hu (fun z => by
      have := hr.near (-z)
      rw [abs_neg] at this
      rwa [← abs_neg, neg_sub, sub_neg_eq_add, add_comm, ← sub_neg_eq_add]) (hM i k) (hP.1 i k)
    rw [neg_sub, abs_of_nonneg ha0, ← abs_neg] at h2
    rwa [show -(-fl (M i k - a) - (a - P i k)) = fl (M i k - a) - (P i k - a) by ring] at h2
  have h2 : |sensitivityMatrixF fl M i (Fin.last n) - sensitivityMatrix P i (Fin.last n)| = 0 := by
    unfold sensitivityMatrixF sensitivityMatrix
    rw [dif_neg (by simp), dif_neg (by simp), sub_self, abs_zero]
  rw [h2, add_zero]
  refine (sum_le_sum fun k _ => h1 k).trans ?_
  have h3 := hP.2 i
  dsimp only at h3
  rw [sum_add_distrib, ← mul_sum, sum_add_distrib, ← mul_sum, ← mul_sum, h3, sum_ite_eq, if_pos (mem_univ i)]
  have := mul_le_mul_of_nonneg_left hr.lt.le hu
  linarith

/-- The rounding errors of the last line of the program. -/
theorem sensitivity_value_error {fl : K → K} {u w ψ X a a' y d D : K} (hu : 0 ≤ u) (hu1 : 3 * u ≤ 1)
    (hfl : ∀ z, |fl z - z| ≤ u * |z|) (hψ0 : 0 ≤ ψ) (hψ : ψ ≤ 1) (hw : w ≤ 1) (ha : 0 ≤ a)
    (ha' : |a' - a| ≤ ψ * a) (hy : |y| ≤ X) (hd : |d| ≤ X) (hD : |D - d| ≤ (2 * w + ψ) * X) :
    |fl (-fl (a' * y) + fl (D * (a' * 1))) - a * (d - y)| ≤ a * ((24 * u + 6 * ψ + 2 * w) * X) := by
  have hX : 0 ≤ X := (abs_nonneg _).trans hy
  obtain ⟨Z, hZ⟩ : ∃ Z, Z = a * X := ⟨_, rfl⟩
  have hZ0 : 0 ≤ Z := by rw [hZ]; exact mul_nonneg ha hX
  have h1 : |a'| ≤ 2 * a := by
    have h := abs_add_le a (a' - a)
    rw [add_sub_cancel, abs_of_nonneg ha] at h
    have := mul_le_mul_of_nonneg_right hψ ha
    linarith
  have h2 : |fl (a' * y) - a * y| ≤ (2 * u + ψ) * Z := by
    have h3 := hfl (a' * y)
    have h4 : |a' * y| ≤ 2 * Z := by
      rw [abs_mul, hZ]
      have := mul_le_mul h1 hy (abs_nonneg _) (by linarith)
      linarith
    have h5 : |a' * y - a * y| ≤ ψ * Z := by
      rw [← sub_mul, abs_mul, hZ]
      have := mul_le_mul ha' hy (abs_nonneg _) (mul_nonneg hψ0 ha)
      linarith
    have h6 := mul_le_mul_of_nonneg_left h4 hu
    have h7 := abs_sub_le (fl (a' * y)) (a' * y) (a * y)
    linarith
  have h3 : |D| ≤ 4 * X := by
    have h := abs_add_le d (D - d)
    rw [add_sub_cancel] at h
    have := mul_le_mul_of_nonneg_right (by linarith : 2 * w + ψ ≤ 3) hX
    linarith
  have h4 : |fl (D * (a' * 1)) - d * a| ≤ (8 * u + 5 * ψ + 2 * w) * Z := by
    rw [mul_one]
    have h5 := hfl (D * a')
    have h6 : |D * a'| ≤ 8 * Z := by
      rw [abs_mul, hZ]
      have := mul_le_mul h3 h1 (abs_nonneg _) (by linarith)
      linarith
    have h7 : |D * a' - d * a| ≤ (5 * ψ + 2 * w) * Z := by
      have h8 := abs_add_le (D * (a' - a)) ((D - d) * a)
      rw [show D * (a' - a) + (D - d) * a = D * a' - d * a by ring, abs_mul, abs_mul, abs_of_nonneg ha] at h8
      have h9 := mul_le_mul h3 ha' (abs_nonneg _) (by linarith)
      have h10 := mul_le_mul_of_nonneg_right hD ha
      rw [hZ]
      linarith
    have h8 := mul_le_mul_of_nonneg_left h6 hu
    have h9 := abs_sub_le (fl (D * a')) (D * a') (d * a)
    linarith
  obtain ⟨p, hp⟩ : ∃ p, p = -fl (a' * y) + fl (D * (a' * 1)) := ⟨_, rfl⟩
  have h5 : |p - a * (d - y)| ≤ (10 * u + 6 * ψ + 2 * w) * Z := by
    have h6 := abs_sub (fl (D * (a' * 1)) - d * a) (fl (a' * y) - a * y)
    rw [show fl (D * (a' * 1)) - d * a - (fl (a' * y) - a * y) = p - a * (d - y) by rw [hp]; ring] at h6
    linarith
  have h6 : |a * (d - y)| ≤ 2 * Z := by
    rw [abs_mul, abs_of_nonneg ha, hZ]
    have := mul_le_mul_of_nonneg_left ((abs_sub d y).trans (add_le_add hd hy)) ha
    linarith
  have h7 : |p| ≤ 14 * Z := by
    have h := abs_add_le (a * (d - y)) (p - a * (d - y))
    rw [add_sub_cancel] at h
    have := mul_le_mul_of_nonneg_right (by linarith : 10 * u + 6 * ψ + 2 * w ≤ 12) hZ0
    linarith
  have h8 := hfl p
  have h9 := mul_le_mul_of_nonneg_left h7 hu
  have h10 := abs_sub_le (fl p) p (a * (d - y))
  rw [← hp, show a * ((24 * u + 6 * ψ + 2 * w) * X) = (24 * u + 6 * ψ + 2 * w) * Z by rw [hZ]; ring]
  linarith

/-- C176. **Sensitivities with rounding**: `m` are the mean first passage times to the state, and `X` bounds the entries of
the vector that `lstsq` returns. -/
theorem C176_sensitivity {c : MC K} {P : Matrix (Fin c.n) (Fin c.n) K} (hP : IsStochastic fun i j => P i j)
    (hirr : Irreducible fun i j => P i j) {fl : K → K} {u δ e : K} (hr : Rounds fl u δ e) (hc : RoundedFrom δ c.p P)
    {F : Arith K} {dot : DotProduct K} {w : K} (hw0 : 0 ≤ w) (hw : w ≤ 1) (hdot : dot.Stable w)
    {sccs : List (List (Fin c.n))} {x' x : Fin c.n → K} {ls : List (Fin c.n → K)} (hpi : piF F c sccs = .ok (x' :: ls))
    (hx : IsStationary (fun i j => P i j) x) {ψ : K} (hψ0 : 0 ≤ ψ) (hψ : ψ ≤ 1) (hx' : ∀ j, |x' j - x j| ≤ ψ * x j)
    {lstsq : Lstsq K c.n} {s : Fin c.n}
    (hl : lstsq.StableAt (sensitivityMatrixF fl c.p) (fun i => if i = s then 1 else 0) e) {X : K}
    (hX : ∀ k, |lstsq (sensitivityMatrixF fl c.p) (fun i => if i = s then 1 else 0) k| ≤ X) {S : Fin c.n → Fin c.n → K}
    (hS : mcSensitivityF fl F dot c sccs lstsq s = .ok (some S)) {m : Fin c.n → K}
    (hm : IsPassageTime (fun i j => P i j) (· = s) m) (i j : Fin c.n) :
    |S i j - x i * x s * (∑ k, x k * m k - m j)| ≤
      x i * (X * (2 * (4 * e + (3 * u + δ)) * (m j + ∑ k, x k * m k) + (24 * u + 6 * ψ + 2 * w))) := by
  have hu := hr.unit
  have hδ := hr.data
  have he := hr.solver
  obtain ⟨y, hy⟩ : ∃ y, y = lstsq (sensitivityMatrixF fl c.p) (fun i => if i = s then 1 else 0) := ⟨_, rfl⟩
  have hX0 : 0 ≤ X := (abs_nonneg _).trans (hX (Fin.last _))
  have hN : ∀ i, ∑ k, |sensitivityMatrixF fl c.p i k| ≤ 4 := fun i => by
    have h1 := sensitivity_row_error hr hP hc i
    have h2 : ∑ k, |sensitivityMatrix P i k| ≤ 3 := by
      rw [Fin.sum_univ_castSucc]
      have h3 : ∀ k : Fin c.n, |sensitivityMatrix P i k.castSucc| ≤ P i k + if i = k then 1 else 0 := fun k => by
        unfold sensitivityMatrix
        rw [dif_pos (show k.castSucc.val < c.n from k.2)]
        have e1 : (if i.val = k.castSucc.val then (1 : K) else 0) = if i = k then 1 else 0 :=
          if_congr (by rw [Fin.ext_iff]; rfl) rfl rfl
        rw [e1]
        change |P i k - if i = k then 1 else 0| ≤ _
        have hp := hP.1 i k
        dsimp only at hp
        rw [abs_le]
        split_ifs <;> constructor <;> linarith
      have h4 : |sensitivityMatrix P i (Fin.last c.n)| = 1 := by
        unfold sensitivityMatrix
        rw [dif_neg (by simp), abs_one]
      rw [h4]
      have h5 := sum_le_sum (s := univ) fun k _ => h3 k
      have h6 := hP.2 i
      dsimp only at h6
      rw [sum_add_distrib, h6, sum_ite_eq, if_pos (mem_univ i)] at h5
      linarith
    have h3 : ∑ k, |sensitivityMatrixF fl c.p i k| ≤
        ∑ k, |sensitivityMatrixF fl c.p i k - sensitivityMatrix P i k| + ∑ k, |sensitivityMatrix P i k| := by
      rw [← sum_add_distrib]
      refine sum_le_sum fun k _ => ?_
      have := abs_add_le (sensitivityMatrixF fl c.p i k - sensitivityMatrix P i k) (sensitivityMatrix P i k)
      rwa [sub_add_cancel] at this
    linarith [hr.small]
  have hres := hl 4 X hN hX
  rw [← hy] at hres hX
  have hpois : ∀ i, |∑ k, P i k * y k.castSucc - y i.castSucc + y (Fin.last _) - (if i = s then 1 else 0)| ≤
      (4 * e + (3 * u + δ)) * X := fun i => by
    rw [← sensitivityMatrix_sum P y i]
    have h1 : |∑ k, sensitivityMatrixF fl c.p i k * y k - ∑ k, sensitivityMatrix P i k * y k| ≤ (3 * u + δ) * X := by
      rw [← sum_sub_distrib]
      refine (abs_sum_le_sum_abs _ _).trans (le_trans ?_ (mul_le_mul_of_nonneg_right (sensitivity_row_error hr hP hc i) hX0))
      rw [sum_mul]
      refine sum_le_sum fun k _ => ?_
      rw [← sub_mul, abs_mul]
      exact mul_le_mul_of_nonneg_left (hX k) (abs_nonneg _)
    have h2 := hres i
    rw [abs_sub_comm] at h1
    have h3 := abs_add_le (∑ k, sensitivityMatrix P i k * y k - ∑ k, sensitivityMatrixF fl c.p i k * y k)
      (∑ k, sensitivityMatrixF fl c.p i k * y k - (if i = s then 1 else 0))
    rw [sub_add_sub_cancel] at h3
    linarith
  have h1 := poisson_combination hP hx (fun i => hirr i s) hm (y := fun k => y k.castSucc) hpois i j
  have hd : |∑ k, y k.castSucc * x k| ≤ X := by
    refine (abs_sum_le_sum_abs _ _).trans ?_
    have h2 : ∑ k, X * x k = X := by rw [← mul_sum, hx.1.2, mul_one]
    rw [← h2]
    refine sum_le_sum fun k _ => ?_
    rw [abs_mul, abs_of_nonneg (hx.1.1 k)]
    exact mul_le_mul_of_nonneg_right (hX _) (hx.1.1 k)
  have hD : |dot c.n (fun k => y k.castSucc) x' - ∑ k, y k.castSucc * x k| ≤ (2 * w + ψ) * X := by
    have h2 := hdot c.n (fun k => y k.castSucc) x'
    have h3 : ∑ k, |y k.castSucc| * |x' k| ≤ 2 * X := by
      have h4 : ∑ k, X * (2 * x k) = 2 * X := by rw [← mul_sum, ← mul_sum, hx.1.2]; ring
      rw [← h4]
      refine sum_le_sum fun k _ => mul_le_mul (hX _) ?_ (abs_nonneg _) hX0
      have h5 := abs_add_le (x k) (x' k - x k)
      rw [add_sub_cancel, abs_of_nonneg (hx.1.1 k)] at h5
      have := mul_le_mul_of_nonneg_right hψ (hx.1.1 k)
      linarith [hx' k]
    have h4 : |∑ k, y k.castSucc * x' k - ∑ k, y k.castSucc * x k| ≤ ψ * X := by
      have h5 : ∑ k, X * (ψ * x k) = ψ * X := by rw [← mul_sum, ← mul_sum, hx.1.2]; ring
      rw [← sum_sub_distrib, ← h5]
      refine (abs_sum_le_sum_abs _ _).trans (sum_le_sum fun k _ => ?_)
      rw [← mul_sub, abs_mul]
      exact mul_le_mul (hX _) (hx' k) (abs_nonneg _) hX0
    have h5 := mul_le_mul_of_nonneg_left h3 hw0
    have h6 := abs_sub_le (dot c.n (fun k => y k.castSucc) x') (∑ k, y k.castSucc * x' k) (∑ k, y k.castSucc * x k)
    linarith
  have h2 := sensitivity_value_error (fl := fl) (y := y j.castSucc) hu (by linarith [hr.small]) hr.near hψ0 hψ hw
    (hx.1.1 i) (hx' i) (hX _) hd hD
  unfold mcSensitivityF at hS
  split at hS
  · rw [R.pure_ok] at hS
    cases hS
  rw [R.bind_ok] at hS
  obtain ⟨l, hl', hS⟩ := hS
  rw [hpi] at hl'
  cases hl'
  rw [R.bind_ok] at hS
  obtain ⟨z, hz, hS⟩ := hS
  have hz := orRaise_ok hz
  rw [List.head?_cons, Option.some.injEq] at hz
  rw [← hz, R.pure_ok, Option.some.injEq] at hS
  have h3 : S i j = fl (-fl (x' i * y j.castSucc) + fl (dot c.n (fun k => y k.castSucc) x' * (x' i * 1))) := by
    rw [← hS, hy]
  rw [h3]
  refine (abs_sub_le _ (x i * (∑ k, y k.castSucc * x k - y j.castSucc)) _).trans ((add_le_add h2 h1).trans (le_of_eq ?_))
  ring

set_option linter.unusedSectionVars false in
/-- C176. Without rounding this is the program of C83. -/
theorem C176_exact (c : MC K) (sccs : List (List (Fin c.n))) (lstsq : Lstsq K c.n) (s : Fin c.n) :
    mcSensitivityF id Arith.exact (fun _ a b => ∑ i, a i * b i) c sccs lstsq s = mcSensitivity c sccs lstsq s := by
  have h : sensitivityMatrixF id c.p = sensitivityMatrix c.p := rfl
  unfold mcSensitivityF mcSensitivity pi0
  rw [piF_exact, h, bind_assoc]
  rfl

/-- An approximate solution in doubles of the system for the second state of `exThird`. -/
def exThirdPhi : Lstsq ℚ 2 := fun _ _ => ![binary64 (3 / 10), -binary64 (3 / 10), binary64 (2 / 5)]

/-- The hypotheses of `C176_sensitivity` can be met in doubles: the program returns a result. -/
theorem C176_instance : exThirdPhi.StableAt (sensitivityMatrixF binary64 exThird.p) (fun i : Fin 2 => if i = 1 then 1 else 0)
      (1 / 2 ^ 52) ∧
    (∀ k, |exThirdPhi (sensitivityMatrixF binary64 exThird.p) (fun i : Fin 2 => if i = 1 then 1 else 0) k| ≤ 1) ∧
    IsPassageTime (fun i j : Fin 2 => (!![1 / 3, 2 / 3; 1, 0] : Matrix (Fin 2) (Fin 2) ℚ) i j) (· = 1) ![3 / 2, 0] ∧
    DotProduct.Stable (fun _ a b => binary64 (∑ i, a i * b i)) (1 / 2 ^ 53) ∧
    ∃ S, mcSensitivityF binary64 (Arith.rounded double) (fun _ a b => binary64 (∑ i, a i * b i)) exThird exThirdNx.sccs
      exThirdPhi (1 : Fin 2) = .ok (some S) := by
  refine ⟨fun N X hN hX i => ?_, ?_, ?_, fun n a b => ?_, ?_⟩
  · have h1 : (∀ i : Fin 2, |∑ k : Fin 3, sensitivityMatrixF binary64 exThird.p i k *
        (![binary64 (3 / 10), -binary64 (3 / 10), binary64 (2 / 5)] : Fin 3 → ℚ) k - (if i = 1 then 1 else 0)| ≤
        1 / 2 ^ 52 * (2 * (1 / 4))) ∧ 2 ≤ ∑ k : Fin 3, |sensitivityMatrixF binary64 exThird.p (1 : Fin 2) k| := by
      decide +kernel
    have h2 : 2 ≤ N := h1.2.trans (hN 1)
    have h3 : 1 / 4 ≤ X := le_trans (by decide +kernel) (hX 2)
    exact (h1.1 i).trans (mul_le_mul_of_nonneg_left (mul_le_mul h2 h3 (by norm_num) (by linarith)) (by positivity))
  · decide +kernel
  · change (∀ i : Fin 2, i = 1 → (![3 / 2, 0] : Fin 2 → ℚ) i = 0) ∧ ∀ i : Fin 2, ¬ i = 1 → (![3 / 2, 0] : Fin 2 → ℚ) i =
      1 + ∑ j, (fun i j : Fin 2 => (!![1 / 3, 2 / 3; 1, 0] : Matrix (Fin 2) (Fin 2) ℚ) i j) i j * (![3 / 2, 0] : Fin 2 → ℚ) j
    decide +kernel
  · refine (binary64_near _).trans (mul_le_mul_of_nonneg_left ?_ (by positivity))
    refine (abs_sum_le_sum_abs _ _).trans (le_of_eq ?_)
    simp only [abs_mul]
  · have hpi := C173_instance.2.2.1
    unfold mcSensitivityF
    rw [if_neg (by decide +kernel), hpi]
    exact ⟨_, rfl⟩

end Verif
