import Verif.Model.RoundedMixing
import Verif.Props.AcceptedCalls
import Verif.Props.Mixing
import Verif.Props.RoundedMeasures
import Verif.Lemmas.Double

/-!
# The mixing time in floating point (C167)
-/

set_option linter.unusedSectionVars false

namespace Verif

open Finset

variable {K : Type} [Field K] [LinearOrder K] [IsStrictOrderedRing K]
variable {F : Arith K} {u : K} {fl : K → K}

/-- The law after `k` steps as the loop calculates it. -/
def lawF (F : Arith K) {n : ℕ} (P : Matrix (Fin n) (Fin n) K) (d : Fin n → K) : ℕ → Fin n → K
  | 0 => d
  | k + 1 => mixStepF F P (lawF F P d k)

theorem lawF_acc (hF : F.Sound u) {n : ℕ} {P : Matrix (Fin n) (Fin n) K} (hP : ∀ i j, 0 ≤ P i j) {d' d : Fin n → K}
    {M : ℕ} (hd : ∀ i, Acc (1 / (1 - u)) M (d' i) (d i)) (k : ℕ) (j : Fin n) :
    Acc (1 / (1 - u)) (M + k * n) (lawF F P d' k j) (Matrix.vecMul d (P ^ k) j) := by
  have h1 := hF.one_le
  induction k generalizing j with
  | zero =>
    rw [pow_zero, Matrix.vecMul_one]
    exact (hd j).mono h1 (by omega)
  | succ k ih =>
    rw [pow_succ, ← Matrix.vecMul_vecMul, lawF, mixStepF]
    have e := Acc.dot hF ih fun i => Acc.refl (hP i j)
    refine e.mono h1 (le_of_eq ?_)
    ring

/-- How far the calculated distance after `k` steps may be from the exact one, if the initial probabilities come
from `M` roundings. -/
def mixingMargin (u : K) (n M k : ℕ) : K := (6 * (M + k * n) + 9 * n ^ 3 + 21 * n) * u

/-- The calculated distance. -/
theorem distanceF_near (hF : F.Sound u) (hfl : ∀ z, |fl z - z| ≤ u * |z|) {n : ℕ} (hn : 1 ≤ n)
    {v' v x' x : Fin n → K} {A B : ℕ} (hv : ∀ i, Acc (1 / (1 - u)) A (v' i) (v i))
    (hx : ∀ i, Acc (1 / (1 - u)) B (x' i) (x i)) (hs : ∑ i, v i ≤ 2) (ht : ∑ i, x i = 1)
    (hA : A * u ≤ 1 / 2) (hB : B * u ≤ 1 / 2) (hnu : n * u ≤ 1 / 2) :
    |distanceF F fl v' x' - (∑ i, |v i - x i|)| ≤ (6 * A + 3 * B + 21 * n) * u := by
  have hu0 := hF.unit_nonneg
  have hn1 : (1 : K) ≤ n := by exact_mod_cast hn
  have hu2 : u ≤ 1 / 2 := le_trans (le_mul_of_one_le_left hu0 hn1) hnu
  have hun : u ≤ n * u := le_mul_of_one_le_left hu0 hn1
  have ev : ∀ i, |v' i - v i| ≤ 2 * (A * u) * v i := fun i => (hv i).relative hF hA
  have ex : ∀ i, |x' i - x i| ≤ 2 * (B * u) * x i := fun i => (hx i).relative hF hB
  have pv : ∀ i, 0 ≤ v i := fun i => (hv i).exact_nonneg
  have px : ∀ i, 0 ≤ x i := fun i => (hx i).exact_nonneg
  have hAu : 0 ≤ A * u := by positivity
  have hBu : 0 ≤ B * u := by positivity
  obtain ⟨S, hS⟩ : ∃ S, S = ∑ i, |fl (v' i - x' i)| := ⟨_, rfl⟩
  -- every summand
  have key : ∀ i, |(|fl (v' i - x' i)|) - (|v i - x i|)| ≤
      (3 * (A * u) + u) * v i + (3 * (B * u) + u) * x i := fun i => by
    have h1 : |fl (v' i - x' i) - (v' i - x' i)| ≤ u * |v' i - x' i| := hfl _
    have h2 : |(v' i - x' i) - (v i - x i)| ≤ 2 * (A * u) * v i + 2 * (B * u) * x i := by
      have : (v' i - x' i) - (v i - x i) = (v' i - v i) - (x' i - x i) := by ring
      rw [this]
      exact (abs_sub _ _).trans (add_le_add (ev i) (ex i))
    have h3 : |v i - x i| ≤ v i + x i := by
      refine (abs_sub _ _).trans (le_of_eq ?_)
      rw [abs_of_nonneg (pv i), abs_of_nonneg (px i)]
    have h4 : |v' i - x' i| ≤ v i + x i + (2 * (A * u) * v i + 2 * (B * u) * x i) := by
      have := abs_sub_abs_le_abs_sub (v' i - x' i) (v i - x i)
      linarith
    have h5 : u * |v' i - x' i| ≤ u * (v i + x i) + 1 / 2 * (2 * (A * u) * v i + 2 * (B * u) * x i) := by
      have a1 := mul_le_mul_of_nonneg_left h4 hu0
      have a2 : 0 ≤ 2 * (A * u) * v i + 2 * (B * u) * x i :=
        add_nonneg (mul_nonneg (by linarith) (pv i)) (mul_nonneg (by linarith) (px i))
      have a3 := mul_le_mul_of_nonneg_right hu2 a2
      rw [mul_add] at a1
      linarith
    have h6 : |fl (v' i - x' i) - (v i - x i)| ≤
        u * |v' i - x' i| + (2 * (A * u) * v i + 2 * (B * u) * x i) := by
      have : fl (v' i - x' i) - (v i - x i) =
          (fl (v' i - x' i) - (v' i - x' i)) + ((v' i - x' i) - (v i - x i)) := by ring
      rw [this]
      exact (abs_add_le _ _).trans (add_le_add h1 h2)
    refine (abs_abs_sub_abs_le _ _).trans (h6.trans ?_)
    linarith
  have hST : |S - (∑ i, |v i - x i|)| ≤ (6 * A + 3 * B) * u + 3 * (n * u) := by
    rw [hS, ← sum_sub_distrib]
    refine (abs_sum_le_sum_abs _ _).trans ((sum_le_sum fun i _ => key i).trans ?_)
    rw [sum_add_distrib, ← mul_sum, ← mul_sum, ht]
    have a1 : (3 * (A * u) + u) * ∑ i, v i ≤ (3 * (A * u) + u) * 2 :=
      mul_le_mul_of_nonneg_left hs (by linarith)
    linarith
  have hT : ∑ i, |v i - x i| ≤ 3 := by
    refine (sum_le_sum fun i _ => (abs_sub _ _)).trans ?_
    rw [sum_add_distrib, sum_congr rfl fun i _ => abs_of_nonneg (pv i),
      sum_congr rfl fun i _ => abs_of_nonneg (px i)]
    linarith
  have hS9 : S ≤ 9 := by
    have := (abs_le.1 hST).2
    have a1 : (6 * (A : K) + 3 * B) * u = 6 * (A * u) + 3 * (B * u) := by ring
    linarith
  have hsum : Acc (1 / (1 - u)) (0 + n) (distanceF F fl v' x') S := by
    rw [hS]
    exact Acc.sum hF fun i => Acc.refl (abs_nonneg _)
  rw [zero_add] at hsum
  have e := hsum.relative hF hnu
  have e2 : 2 * (n * u) * S ≤ 2 * (n * u) * 9 := mul_le_mul_of_nonneg_left hS9 (by positivity)
  have e3 := abs_sub_le (distanceF F fl v' x') S (∑ i, |v i - x i|)
  have e4 : (6 * (A : K) + 3 * B + 21 * n) * u = (6 * A + 3 * B) * u + 3 * (n * u) + 2 * (n * u) * 9 := by ring
  linarith

theorem mixingLoopF_spec {n : ℕ} {P : Matrix (Fin n) (Fin n) K} (x d : Fin n → K) (cutoff : K) (jump : ℤ) (T : ℕ → K)
    (hT : ∀ k, 1 ≤ k → T k = distanceF F fl (lawF F P d k) x) (fuel m : ℕ) :
    (∃ k, m ≤ k ∧ k < m + fuel ∧ T k ≤ cutoff ∧ (∀ j, m ≤ j → j < k → cutoff < T j) ∧
      mixingLoopF F fl P x cutoff jump fuel (T m) (lawF F P d (m + 1)) (m * jump) = (m + fuel - k, k * jump)) ∨
    ((∀ j, m ≤ j → j < m + fuel → cutoff < T j) ∧
      (mixingLoopF F fl P x cutoff jump fuel (T m) (lawF F P d (m + 1)) (m * jump)).1 = 0) := by
  induction fuel generalizing m with
  | zero => exact Or.inr ⟨fun j h1 h2 => by omega, rfl⟩
  | succ fuel ih =>
    unfold mixingLoopF
    by_cases h : T m > cutoff
    · rw [if_pos h]
      have h1 : distanceF F fl (lawF F P d (m + 1)) x = T (m + 1) := (hT (m + 1) (by omega)).symm
      have h2 : mixStepF F P (lawF F P d (m + 1)) = lawF F P d (m + 1 + 1) := rfl
      have h3 : (m * jump + jump : ℤ) = ((m + 1 : ℕ) : ℤ) * jump := by push_cast; ring
      rw [h1, h2, h3]
      rcases ih (m + 1) with ⟨k, k1, k2, k3, k4, k5⟩ | ⟨k1, k2⟩
      · refine Or.inl ⟨k, by omega, by omega, k3, fun j j1 j2 => ?_, ?_⟩
        · by_cases hj : j = m
          · rw [hj]; exact h
          · exact k4 j (by omega) j2
        · rw [k5, show m + 1 + fuel - k = m + (fuel + 1) - k by omega]
      · refine Or.inr ⟨fun j j1 j2 => ?_, k2⟩
        by_cases hj : j = m
        · rw [hj]; exact h
        · exact k1 j (by omega) (by omega)
    · rw [if_neg h]
      exact Or.inl ⟨m, le_rfl, by omega, not_lt.1 h, fun j j1 j2 => by omega, by
        rw [show m + (fuel + 1) - m = fuel + 1 by omega]⟩

/-- The entries of the calculated stationary distribution. -/
theorem piF_head (hF : F.Sound u) {c : MC K} (hc : c.Valid) {nx : Nx c.n} (hx : nx.Sound c.p)
    (hirr : Irreducible c.p) : ∃ x x' : Fin c.n → K, ∃ l', pi0 c nx.sccs = .ok x ∧ IsStationary c.p x ∧
      piF F c nx.sccs = .ok l' ∧ l'.head? = some x' ∧ ∀ i, Acc (1 / (1 - u)) (3 * c.n ^ 3) (x' i) (x i) := by
  obtain ⟨x, h1, h2, h3, h4⟩ := C34_stationary hc hx.sccs hirr
  obtain ⟨l, l', e1, e2, e3⟩ := C147_pi hF hc hx.sccs
  rw [h1] at e1
  cases e1
  cases e3 with
  | cons e4 e5 =>
    cases e5
    refine ⟨x, _, _, ?_, h2, e2, rfl, fun i => ⟨(h3 i).le, (e4 i).2⟩⟩
    unfold pi0
    rw [h1]
    rfl

theorem vecMul_power_sum {n : ℕ} {P : Matrix (Fin n) (Fin n) K} (hP : IsStochastic P) (d : Fin n → K) (k : ℕ) :
    ∑ j, Matrix.vecMul d (P ^ k) j = ∑ i, d i := by
  induction k with
  | zero => rw [pow_zero, Matrix.vecMul_one]
  | succ k ih =>
    rw [← ih, pow_succ, ← Matrix.vecMul_vecMul]
    change ∑ j, ∑ i, Matrix.vecMul d (P ^ k) i * P i j = _
    rw [sum_comm]
    refine sum_congr rfl fun i _ => ?_
    rw [← mul_sum]
    exact (congrArg (_ * ·) (hP.2 i)).trans (mul_one _)

/-- What `mc_mixing_time` compares with the cutoff. -/
theorem mcMixingTimeF_run (hF : F.Sound u) (hfl : ∀ z, |fl z - z| ≤ u * |z|) {c : MC K} (hc : c.Valid) {nx : Nx c.n}
    (hx : nx.Sound c.p) (herg : Ergodic c.p) {d' d : Fin c.n → K} {M : ℕ}
    (hd : ∀ i, Acc (1 / (1 - u)) M (d' i) (d i)) (hs : ∑ i, d i ≤ 2) (jump : ℤ) {cutoff : K} (hcut : cutoff < 1)
    (hu : ((M + 99 * c.n + 3 * c.n ^ 3 : ℕ) : K) * u ≤ 1 / 2) :
    ∃ x, ∃ T : ℕ → K, pi0 c nx.sccs = .ok x ∧ IsStationary c.p x ∧
      (∀ j, 1 ≤ j → j ≤ 99 → |T j - distAt c.p x d j| ≤ mixingMargin u c.n M j) ∧
      ((∃ k : ℕ, 1 ≤ k ∧ k ≤ 99 ∧ mcMixingTimeF F fl c nx d' jump cutoff = .ok (some (k * jump)) ∧
          T k ≤ cutoff ∧ ∀ j, 1 ≤ j → j < k → cutoff < T j) ∨
        (mcMixingTimeF F fl c nx d' jump cutoff = .ok none ∧ ∀ j, 1 ≤ j → j ≤ 99 → cutoff < T j)) := by
  have h1 := hF.one_le
  have hu0 := hF.unit_nonneg
  have hn : 1 ≤ c.n := by have := hc.1; omega
  obtain ⟨x, x', l', p1, p2, p3, p4, p5⟩ := piF_head hF hc hx herg.1
  obtain ⟨T, hT⟩ : ∃ T : ℕ → K, T = fun k => if k = 0 then 1 else distanceF F fl (lawF F c.p d' k) x' := ⟨_, rfl⟩
  have hT0 : T 0 = 1 := by rw [hT]; rfl
  have hT1 : ∀ k, 1 ≤ k → T k = distanceF F fl (lawF F c.p d' k) x' := fun k hk => by
    rw [hT]; exact if_neg (by omega)
  have small : ∀ N : ℕ, N ≤ M + 99 * c.n + 3 * c.n ^ 3 → (N : K) * u ≤ 1 / 2 := fun N hN =>
    (mul_le_mul_of_nonneg_right (by exact_mod_cast hN) hu0).trans hu
  refine ⟨x, T, p1, p2, fun j j1 j2 => ?_, ?_⟩
  · rw [hT1 j j1]
    have hj : j * c.n ≤ 99 * c.n := Nat.mul_le_mul_right _ j2
    have e := distanceF_near hF hfl hn (lawF_acc hF hc.2.1.1 hd j) p5
      ((vecMul_power_sum hc.2.1 d j).trans_le hs) p2.1.2 (small _ (by omega)) (small _ (by omega))
      (small _ (by omega))
    refine e.trans (le_of_eq ?_)
    unfold mixingMargin
    push_cast
    ring
  · have hrun : mcMixingTimeF F fl c nx d' jump cutoff =
        .ok (if (mixingLoopF F fl c.p x' cutoff jump 100 (T 0) (lawF F c.p d' (0 + 1)) ((0 : ℕ) * jump)).1 = 0
          then none else
          some (mixingLoopF F fl c.p x' cutoff jump 100 (T 0) (lawF F c.p d' (0 + 1)) ((0 : ℕ) * jump)).2) := by
      unfold mcMixingTimeF
      rw [if_pos ((isErgodic_iff hc hx).2 herg), p3, hT0, Nat.cast_zero, zero_mul, R.ok_bind, p4]
      rfl
    rw [hrun]
    rcases mixingLoopF_spec (F := F) (fl := fl) (P := c.p) x' d' cutoff jump T hT1 100 0 with
      ⟨k, k1, k2, k3, k4, k5⟩ | ⟨k1, k2⟩
    · have hk0 : k ≠ 0 := by
        rintro rfl
        rw [hT0] at k3
        exact absurd k3 (not_le.2 hcut)
      left
      refine ⟨k, by omega, by omega, ?_, k3, fun j j1 j2 => k4 j (by omega) j2⟩
      rw [k5, if_neg (by simp only; omega)]
    · exact Or.inr ⟨by rw [if_pos k2], fun j j1 j2 => k1 j (by omega) (by omega)⟩

/-! ## The method -/

/-- The initial distribution, with one rounding if it is omitted. -/
theorem initialF_acc (hF : F.Sound u) {n : ℕ} (hn : 0 < n) {d : Option (PyVal K)} {y : Fin n → K}
    (h : initialDistribution n d = .ok y) :
    ∃ y' : Fin n → K, initialDistributionF F n d = .ok y' ∧
      (∀ i, Acc (1 / (1 - u)) 1 (y' i) (y i)) ∧ ∑ i, y i ≤ 2 := by
  have h1 := hF.one_le
  have hn' : (0 : K) < n := by exact_mod_cast hn
  rcases (initial_iff hn).1 h with ⟨rfl, rfl⟩ | ⟨v, rfl, -, hv⟩
  · refine ⟨_, rfl, fun i => ?_, ?_⟩
    · exact (Acc.div hF (Acc.refl zero_le_one) (Acc.refl hn'.le) hn').mono h1 (by omega)
    · rw [sum_const, card_univ, Fintype.card_fin, nsmul_eq_mul, mul_one_div_cancel hn'.ne']
      norm_num
  · refine ⟨y, h, fun i => (Acc.refl (hv.1 i).1).mono h1 (by omega), ?_⟩
    have := (abs_le.1 (hv.2.2.2 rfl)).2
    have : (1 : K) / 10 ^ 8 + 1 / 10 ^ 5 ≤ 1 := by norm_num
    linarith

/-- C167. **The mixing time in floating point.** If every arithmetic operation has a relative error of at most `u`,
then the result of `mixing_time` for an ergodic chain is `k` jumps, for a number `k` from 1 to 99 such that the exact
distance after `k` steps exceeds the cutoff by at most `(600 n + 9 n ^ 3) u` or so, and the exact distance after every
smaller number of steps is not below the cutoff by more than this; `None` is returned only if the latter holds for all
numbers of steps up to 99. -/
theorem C167_mixing_time (hF : F.Sound u) (hfl : ∀ z, |fl z - z| ≤ u * |z|) {c : MC K} (hc : c.Valid) {nx : Nx c.n}
    (hx : nx.Sound c.p) (herg : Ergodic c.p) {natural : K} (hnat : natural < 1) {d : Option (PyVal K)}
    {jump kind : PyVal K} {y : Fin c.n → K} {z : ℤ} {s : String} (hd : initialDistribution c.n d = .ok y)
    (hj : validateInteger jump (some (0, true)) none = .ok z)
    (hk : validateEnumerator kind ["natural", "traditional"] = .ok s)
    (hu : ((1 + 99 * c.n + 3 * c.n ^ 3 : ℕ) : K) * u ≤ 1 / 2) {cutoff : K}
    (hcut : cutoff = if s = "traditional" then 1 / 4 else natural) :
    ∃ x, IsStationary c.p x ∧
      ((∃ k : ℕ, 1 ≤ k ∧ k ≤ 99 ∧ mixingTimeF F fl c nx natural d jump kind = .ok (some (k * z)) ∧
          distAt c.p x y k ≤ cutoff + mixingMargin u c.n 1 k ∧
          ∀ j, 1 ≤ j → j < k → cutoff - mixingMargin u c.n 1 j < distAt c.p x y j) ∨
        (mixingTimeF F fl c nx natural d jump kind = .ok none ∧
          ∀ j, 1 ≤ j → j ≤ 99 → cutoff - mixingMargin u c.n 1 j < distAt c.p x y j)) := by
  have hc1 : cutoff < 1 := by
    rw [hcut]
    split
    · norm_num
    · exact hnat
  obtain ⟨y', h1, h2, h3⟩ := initialF_acc hF (by have := hc.1; omega) hd
  have hrun : mixingTimeF F fl c nx natural d jump kind = mcMixingTimeF F fl c nx y' z cutoff := by
    unfold mixingTimeF
    rw [h1, R.ok_bind, hj, R.ok_bind, hk, R.ok_bind, hcut]
  rw [hrun]
  obtain ⟨x, T, -, e2, e3, e4⟩ := mcMixingTimeF_run hF hfl hc hx herg h2 h3 z hc1 hu
  refine ⟨x, e2, ?_⟩
  rcases e4 with ⟨k, k1, k2, k3, k4, k5⟩ | ⟨k1, k2⟩
  · refine Or.inl ⟨k, k1, k2, k3, ?_, fun j j1 j2 => ?_⟩
    · have := (abs_le.1 (e3 k k1 k2)).1
      linarith
    · have := (abs_le.1 (e3 j j1 (by omega))).2
      have := k5 j j1 j2
      linarith
  · refine Or.inr ⟨k1, fun j j1 j2 => ?_⟩
    have := (abs_le.1 (e3 j j1 j2)).2
    have := k2 j j1 j2
    linarith

/-- C167, agreement. The result is the one of exact arithmetic, unless the distance after one of the first 99 steps is
almost equal to the cutoff. -/
theorem C167_same (hF : F.Sound u) (hfl : ∀ z, |fl z - z| ≤ u * |z|) {c : MC K} (hc : c.Valid) {nx : Nx c.n}
    (hx : nx.Sound c.p) (herg : Ergodic c.p) {natural : K} (hnat : natural < 1) {d : Option (PyVal K)}
    {jump kind : PyVal K} {y : Fin c.n → K} {z : ℤ} {s : String} (hd : initialDistribution c.n d = .ok y)
    (hj : validateInteger jump (some (0, true)) none = .ok z)
    (hk : validateEnumerator kind ["natural", "traditional"] = .ok s)
    (hu : ((1 + 99 * c.n + 3 * c.n ^ 3 : ℕ) : K) * u ≤ 1 / 2) {cutoff : K}
    (hcut : cutoff = if s = "traditional" then 1 / 4 else natural)
    (hfar : ∀ x, IsStationary c.p x → ∀ j, 1 ≤ j → j ≤ 99 → mixingMargin u c.n 1 j < |distAt c.p x y j - cutoff|) :
    mixingTimeF F fl c nx natural d jump kind = mixingTime c nx natural d jump kind := by
  have hc1 : cutoff < 1 := by
    rw [hcut]
    split
    · norm_num
    · exact hnat
  have hm : ∀ j, 0 ≤ mixingMargin u c.n 1 j := fun j => by
    have := hF.unit_nonneg
    unfold mixingMargin
    positivity
  have huniq : ∀ x x', IsStationary c.p x → IsStationary c.p x' → x = x' := fun x x' h h' => by
    obtain ⟨w, -, -, -, hw⟩ := pi0_spec hc hx.sccs herg.1
    rw [hw x h, hw x' h']
  rw [mixingTime_run hd hj hk, ← hcut]
  obtain ⟨x, hx1, hx2⟩ := mcMixingTime_spec hc hx herg y z hc1
  obtain ⟨x', hx1', hx2'⟩ := C167_mixing_time hF hfl hc hx herg hnat hd hj hk hu hcut
  cases huniq x' x hx1' hx1
  have near : ∀ j, 1 ≤ j → j ≤ 99 →
      ((distAt c.p x y j ≤ cutoff + mixingMargin u c.n 1 j → distAt c.p x y j ≤ cutoff) ∧
        (cutoff - mixingMargin u c.n 1 j < distAt c.p x y j → cutoff < distAt c.p x y j)) := fun j j1 j2 => by
    have h0 := hm j
    rcases lt_abs.1 (hfar x hx1 j j1 j2) with h | h
    · exact ⟨fun h' => by linarith, fun h' => by linarith⟩
    · exact ⟨fun h' => by linarith, fun h' => by linarith⟩
  rcases hx2 with ⟨k, k1, k2, k3, k4, k5⟩ | ⟨k1, k2⟩ <;>
    rcases hx2' with ⟨k', k1', k2', k3', k4', k5'⟩ | ⟨k1', k2'⟩
  · have : k = k' := by
      rcases lt_trichotomy k k' with h | h | h
      · exact absurd k4 (not_le.2 ((near k k1 k2).2 (k5' k k1 h)))
      · exact h
      · exact absurd ((near k' k1' k2').1 k4') (not_le.2 (k5 k' k1' h))
    rw [k3, k3', this]
  · exact absurd k4 (not_le.2 ((near k k1 k2).2 (k2' k k1 k2)))
  · exact absurd ((near k' k1' k2').1 k4') (not_le.2 (k2 k' k1' k2'))
  · rw [k1, k1']

theorem margin_two {j : ℕ} (hj : j ≤ 99) : mixingMargin (1 / 2 ^ 53 : ℚ) 2 1 j < |0 - 1 / 4| := by
  have hj' : (j : ℚ) ≤ 99 := by exact_mod_cast hj
  have h4 : |(0 : ℚ) - 1 / 4| = 1 / 4 := by norm_num [abs_of_pos]
  have h5 : (6 * (1 + 99 * 2) + 72 + 42 : ℚ) * (1 / 2 ^ 53) < 1 / 4 := by norm_num
  have h6 : (0 : ℚ) ≤ 1 / 2 ^ 53 := by positivity
  rw [h4]
  unfold mixingMargin
  generalize (1 / 2 ^ 53 : ℚ) = e at h5 h6
  refine lt_of_le_of_lt (mul_le_mul_of_nonneg_right ?_ h6) h5
  push_cast
  linarith

theorem exFair_far (x : Fin 2 → ℚ) (hx : x = fun _ => 1 / 2) (j : ℕ) (hj : j ≤ 99) :
    mixingMargin (1 / 2 ^ 53) 2 1 j <
      |distAt (fun i j : Fin 2 => exFair.p i j) x (fun _ => 1 / ((2 : ℕ) : ℚ)) j - 1 / 4| := by
  have hP : IsStochastic (fun i j : Fin 2 => exFair.p i j) := by decide +kernel
  have hst : IsStationary (fun i j : Fin 2 => exFair.p i j) (fun _ => 1 / 2) := by decide +kernel
  have h0 : distAt (fun i j : Fin 2 => exFair.p i j) x (fun _ => 1 / ((2 : ℕ) : ℚ)) j ≤ 0 := by
    rw [hx]
    refine (distAt_antitone hP hst.2 _ (Nat.zero_le j)).trans (le_of_eq ?_)
    unfold distAt
    decide +kernel
  have h1 : 0 ≤ distAt (fun i j : Fin 2 => exFair.p i j) x (fun _ => 1 / ((2 : ℕ) : ℚ)) j :=
    sum_nonneg fun i _ => abs_nonneg _
  rw [le_antisymm h0 h1]
  exact margin_two hj

/-- C167 for doubles, without underflow: both results are one for the chain that is stationary after one step. -/
theorem C167_instance : (Arith.rounded binary64).Sound (1 / 2 ^ 53) ∧
    mixingTimeF (Arith.rounded binary64) binary64 exFair (exNx exFair rfl) 0 none (.int 1) (.str "traditional") =
      mixingTime exFair (exNx exFair rfl) 0 none (.int 1) (.str "traditional") := by
  have hF : (Arith.rounded binary64).Sound (1 / 2 ^ 53) := rounded_sound (by positivity) (by norm_num) binary64_near
  have hv : exFair.Valid := by decide +kernel
  have hpos : ∀ i j : Fin 2, Edge (fun i j : Fin 2 => exFair.p i j) i j := by decide +kernel
  have hcl : IsClasses exFair.p ([[0, 1]] : List (List (Fin 2))) := by
    change IsClasses (fun i j : Fin 2 => exFair.p i j) [[0, 1]]
    decide +kernel
  have hnx : (exNx exFair rfl).Sound exFair.p := Nx.ofClasses_sound true hcl
  have herg : Ergodic exFair.p := ergodic_of_pos hpos
  have hst : IsStationary exFair.p (fun _ => 1 / 2) := by
    change IsStationary (fun i j : Fin 2 => exFair.p i j) (fun _ => 1 / 2)
    decide +kernel
  have hd : initialDistribution exFair.n none = .ok (fun _ => 1 / ((2 : ℕ) : ℚ)) := rfl
  have hj : validateInteger (.int 1 : PyVal ℚ) (some (0, true)) none = .ok 1 := by decide +kernel
  have hk : validateEnumerator (.str "traditional" : PyVal ℚ) ["natural", "traditional"] = .ok "traditional" := by
    decide +kernel
  have hu : ((1 + 99 * exFair.n + 3 * exFair.n ^ 3 : ℕ) : ℚ) * (1 / 2 ^ 53) ≤ 1 / 2 := by
    change ((1 + 99 * 2 + 3 * 2 ^ 3 : ℕ) : ℚ) * (1 / 2 ^ 53) ≤ 1 / 2
    norm_num
  refine ⟨hF, C167_same hF binary64_near hv hnx herg zero_lt_one hd hj hk hu (cutoff := 1 / 4) (if_pos rfl).symm
    fun x hx j _ hj => ?_⟩
  exact exFair_far x (by
    obtain ⟨w, -, -, -, hw⟩ := pi0_spec hv hnx.sccs herg.1
    exact (hw x hx).trans (hw _ hst).symm) j hj

/-! ## A disagreement -/

/-- The probabilities of the chain below. -/
def rowsMixing : Fin 3 → Fin 3 → ℚ := ![![2 / 8, 5 / 8, 1 / 8], ![2 / 8, 3 / 8, 3 / 8], ![2 / 8, 5 / 8, 1 / 8]]

/-- A chain whose distance from the third state after one step is one fourth. -/
def exMixing : MC ℚ := ⟨3, fun i j => rowsMixing i j, ["a", "b", "c"]⟩

/-- What the code uses of networkx. -/
def exMixingNx : Nx exMixing.n := Nx.ofClasses exMixing.p [[(0 : Fin 3), (1 : Fin 3), (2 : Fin 3)]] true

/-- Disagreement with C167: all probabilities are doubles, and the mixing time from the third state is one. In double
arithmetic two is returned. -/
theorem C167_differs : exMixing.Valid ∧ (∀ i j, double (rowsMixing i j) = rowsMixing i j) ∧
    mixingTime exMixing exMixingNx 0 (some (.list [.int 0, .int 0, .int 1])) (.int 1) (.str "traditional") =
      .ok (some 1) ∧
    mixingTimeF (Arith.rounded double) double exMixing exMixingNx 0 (some (.list [.int 0, .int 0, .int 1])) (.int 1)
      (.str "traditional") = .ok (some 2) := by
  refine ⟨by decide +kernel, by decide +kernel, ?_, ?_⟩
  · have : (mixingTime exMixing exMixingNx 0 (some (.list [.int 0, .int 0, .int 1])) (.int 1)
        (.str "traditional")).toOption = some (some 1) := by decide +kernel
    revert this
    cases mixingTime exMixing exMixingNx 0 (some (.list [.int 0, .int 0, .int 1])) (.int 1) (.str "traditional") with
    | error e => intro h; cases h
    | ok r => intro h; cases h; rfl
  · have : (mixingTimeF (Arith.rounded double) double exMixing exMixingNx 0
        (some (.list [.int 0, .int 0, .int 1])) (.int 1) (.str "traditional")).toOption = some (some 2) := by
      decide +kernel
    revert this
    cases mixingTimeF (Arith.rounded double) double exMixing exMixingNx 0 (some (.list [.int 0, .int 0, .int 1]))
      (.int 1) (.str "traditional") with
    | error e => intro h; cases h
    | ok r => intro h; cases h; rfl

end Verif
