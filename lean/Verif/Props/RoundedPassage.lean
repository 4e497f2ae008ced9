import Verif.Model.RoundedPassage
import Verif.Props.RoundedHitting
import Verif.Props.RoundedReversible
import Verif.Props.RoundedSolve

/-!
# Mean first passage times between all states with an inexact inverse

C173: the relative error of `mean_first_passage_times_to()` is at most a small multiple of the errors of the inverse and of
the stationary distribution times the largest mean passage time. Small stationary probabilities do no harm, although
the program divides by them.
-/

namespace Verif

variable {K : Type} [Field K] [LinearOrder K] [IsStrictOrderedRing K]

open Finset

/-- A column `z` of an inverse of `I - P + A` up to residuals of at most `r`: its differences are the mean passage times
to `j` multiplied by the stationary probability of `j`. -/
theorem column_error {n : ℕ} {P : Fin n → Fin n → K} (hP : IsStochastic P) {x : Fin n → K} (hx : IsStationary P x)
    {j : Fin n} (hreach : ∀ i, Reach P i j) {m : Fin n → K} (hm : IsPassageTime P (· = j) m) {T : K} (hT : ∀ i, m i ≤ T)
    {z : Fin n → K} {r : K} (hz : ∀ i, |z i - ∑ k, P i k * z k + ∑ k, x k * z k - (if i = j then 1 else 0)| ≤ r) :
    (∀ i, |z j - z i - x j * m i| ≤ r * (2 * m i + 1)) ∧ ∀ i, |z i| ≤ x j * (T + 1) + 4 * r * (T + 1) := by
  have hB : ∀ i, ∃ b, b = j ∧ Reach P i b := fun i => ⟨j, rfl, hreach i⟩
  have hm0 := passageTime_ge_zero hP hB hm
  have hr0 : 0 ≤ r := (abs_nonneg _).trans (hz j)
  obtain ⟨c, hc⟩ : ∃ c, c = ∑ k, x k * z k := ⟨_, rfl⟩
  have hx1 := hx.1.2
  have hx0 := hx.1.1
  have hcj : |c - x j| ≤ r := by
    have h1 : ∑ i, x i * (z i - ∑ k, P i k * z k + ∑ k, x k * z k - (if i = j then 1 else 0)) = c - x j := by
      have h2 : ∀ i, x i * (z i - ∑ k, P i k * z k + ∑ k, x k * z k - (if i = j then 1 else 0)) =
          x i * z i - ∑ k, x i * (P i k * z k) + x i * c - x i * (if i = j then 1 else 0) := fun i => by
        rw [← mul_sum, hc]; ring
      rw [sum_congr rfl fun i _ => h2 i, sum_sub_distrib, sum_add_distrib, sum_sub_distrib, ← sum_mul, hx1, sum_comm]
      have h3 : ∑ k, ∑ i, x i * (P i k * z k) = ∑ k, x k * z k := sum_congr rfl fun k _ => by
        rw [← hx.2 k, sum_mul]
        exact sum_congr rfl fun i _ => by ring
      rw [h3]
      simp
    rw [← h1]
    refine (abs_sum_le_sum_abs _ _).trans ?_
    calc _ ≤ ∑ i, x i * r := sum_le_sum fun i _ => by
          rw [abs_mul, abs_of_nonneg (hx0 i)]
          exact mul_le_mul_of_nonneg_left (hz i) (hx0 i)
      _ = r := by rw [← sum_mul, hx1, one_mul]
  have hy : ∀ i, |z j - z i - c * m i| ≤ r * (m i + 1) := by
    refine residual_error hP hB hm (x' := fun i => z j - z i) (x := fun i => c * m i) (b := fun i => if i = j then 0 else c)
      (fun i hi => ?_) (fun i hi => ?_) (fun i hi => ?_) (fun i hi => ?_)
    · rw [if_pos hi, hm.1 i hi, mul_zero]
    · have h2 : ∑ k, P i k * (c * m k) = c * ∑ k, P i k * m k := by
        rw [mul_sum]
        exact sum_congr rfl fun k _ => by ring
      rw [if_neg hi, h2]
      have := hm.2 i hi
      linear_combination c * this
    · rw [if_pos hi, hi, sub_self, sub_self, abs_zero]
      exact hr0
    · have h2 : ∑ k, P i k * (z j - z k) = z j - ∑ k, P i k * z k := by
        simp only [mul_sub, sum_sub_distrib, ← sum_mul, hP.2 i, one_mul]
      rw [if_neg hi, h2]
      have h3 := hz i
      rw [if_neg hi, ← hc, sub_zero] at h3
      rw [show z j - z i - (z j - ∑ k, P i k * z k) - c = -(z i - ∑ k, P i k * z k + c) by ring, abs_neg]
      exact h3
  have hd : ∀ i, |z j - z i - x j * m i| ≤ r * (2 * m i + 1) := fun i => by
    have h1 := abs_le.1 (hy i)
    have h2 := abs_le.1 hcj
    have h3 := mul_le_mul_of_nonneg_right h2.1 (hm0 i)
    have h4 := mul_le_mul_of_nonneg_right h2.2 (hm0 i)
    rw [abs_le]
    constructor <;> linarith
  refine ⟨hd, fun i => ?_⟩
  obtain ⟨μ, hμ⟩ : ∃ μ, μ = ∑ k, x k * m k := ⟨_, rfl⟩
  have hμ0 : 0 ≤ μ := by rw [hμ]; exact sum_nonneg fun k _ => mul_nonneg (hx0 k) (hm0 k)
  have hμT : μ ≤ T := by
    rw [hμ]
    calc _ ≤ ∑ k, x k * T := sum_le_sum fun k _ => mul_le_mul_of_nonneg_left (hT k) (hx0 k)
      _ = T := by rw [← sum_mul, hx1, one_mul]
  have hT0 : 0 ≤ T := hμ0.trans hμT
  have hzj : |z j - c - x j * μ| ≤ r * (2 * T + 1) := by
    have h1 : z j - c - x j * μ = ∑ k, x k * (z j - z k - x j * m k) := by
      have h2 : ∀ k, x k * (z j - z k - x j * m k) = x k * z j - x k * z k - x j * (x k * m k) := fun k => by ring
      rw [sum_congr rfl fun k _ => h2 k, sum_sub_distrib, sum_sub_distrib, ← sum_mul, ← mul_sum, hx1, ← hc, ← hμ, one_mul]
    rw [h1]
    refine (abs_sum_le_sum_abs _ _).trans ?_
    calc _ ≤ ∑ k, x k * (r * (2 * T + 1)) := sum_le_sum fun k _ => by
          rw [abs_mul, abs_of_nonneg (hx0 k)]
          refine mul_le_mul_of_nonneg_left ((hd k).trans (mul_le_mul_of_nonneg_left ?_ hr0)) (hx0 k)
          linarith [hT k]
      _ = r * (2 * T + 1) := by rw [← sum_mul, hx1, one_mul]
  have h1 := abs_le.1 hzj
  have h2 := abs_le.1 hcj
  have h3 := abs_le.1 ((hd i).trans (mul_le_mul_of_nonneg_left (by linarith [hT i] : 2 * m i + 1 ≤ 2 * T + 1) hr0))
  have h4 : x j * μ ≤ x j * T := mul_le_mul_of_nonneg_left hμT (hx0 j)
  have h5 : x j * m i ≤ x j * T := mul_le_mul_of_nonneg_left (hT i) (hx0 j)
  have h6 : 0 ≤ x j * m i := mul_nonneg (hx0 j) (hm0 i)
  have h7 : 0 ≤ x j * μ := mul_nonneg (hx0 j) hμ0
  have h8 : 0 ≤ r * T := mul_nonneg hr0 hT0
  rw [abs_le]
  constructor <;> linarith [hx0 j]

/-- The stationary distribution of an irreducible chain is positive. -/
theorem irreducible_stationary_pos {n : ℕ} {P : Fin n → Fin n → K} (hP : IsStochastic P) (hirr : Irreducible P)
    {x : Fin n → K} (hx : IsStationary P x) (j : Fin n) : 0 < x j := by
  obtain ⟨i, hi⟩ : ∃ i, 0 < x i := by
    by_contra hn
    push Not at hn
    have h1 := hx.1.2
    have h2 : ∑ i, x i ≤ 0 := sum_nonpos fun i _ => hn i
    linarith
  have h := hirr i j
  induction h with
  | refl => exact hi
  | tail _ he ih =>
    rename_i b d _
    rw [← hx.2 d]
    exact lt_of_lt_of_le (mul_pos ih he)
      (single_le_sum (f := fun k => x k * P k d) (fun k _ => mul_nonneg (hx.1.1 k) (hP.1 k d)) (mem_univ b))

/-- A row of the computed matrix `I - P + A`. -/
theorem group_row_error {fl : K → K} {u δ e ψ : K} (hr : Rounds fl u δ e) {n : ℕ} {M P : Matrix (Fin n) (Fin n) K}
    (hP : IsStochastic fun i j => P i j) (hM : RoundedFrom δ M P) {x x' : Fin n → K} (hx : IsDist x) (hψ : ψ ≤ 1)
    (hx' : ∀ j, |x' j - x j| ≤ ψ * x j) (i : Fin n) :
    ∑ j, |groupMatrixF fl M x' i j - ((if i = j then 1 else 0) - P i j + x j)| ≤ 8 * u + δ + ψ := by
  have hrow := row_error hr.unit hr.data hr.lt.le hr.near hP hM Function.injective_id i
  have hnorm := row_norm hP Function.injective_id i
  simp only [id_eq] at hrow hnorm
  have h1 : ∀ j, |groupMatrixF fl M x' i j - ((if i = j then 1 else 0) - P i j + x j)| ≤
      (1 + u) * |fl ((if i = j then 1 else 0) - M i j) - ((if i = j then 1 else 0) - P i j)| +
      u * |(if i = j then 1 else 0) - P i j| + (u * ((1 + ψ) * x j) + ψ * x j) := fun j => by
    unfold groupMatrixF eyeMinusF
    have h2 := hr.near (fl ((if i = j then 1 else 0) - M i j) + x' j)
    have h3 := hx' j
    obtain ⟨a, ha⟩ : ∃ a, a = fl ((if i = j then 1 else 0) - M i j) := ⟨_, rfl⟩
    obtain ⟨b, hb⟩ : ∃ b, b = (if i = j then 1 else 0) - P i j := ⟨_, rfl⟩
    rw [← ha] at h2 ⊢
    rw [← hb]
    have h4 : |a + x' j| ≤ |a - b| + |b| + (1 + ψ) * x j := by
      have h5 : |x' j| ≤ (1 + ψ) * x j := by
        have := abs_add_le (x j) (x' j - x j)
        rw [add_sub_cancel, abs_of_nonneg (hx.1 j)] at this
        linarith
      have h6 := abs_add_le a (x' j)
      have h7 := abs_add_le (a - b) b
      rw [sub_add_cancel] at h7
      linarith
    have h5 : |fl (a + x' j) - (b + x j)| ≤ |fl (a + x' j) - (a + x' j)| + |a - b| + |x' j - x j| := by
      have h6 := abs_sub_le (fl (a + x' j)) (a + x' j) (b + x j)
      have h7 := abs_add_le (a - b) (x' j - x j)
      rw [show a - b + (x' j - x j) = a + x' j - (b + x j) by ring] at h7
      linarith
    have h6 := mul_le_mul_of_nonneg_left h4 hr.unit
    linarith
  refine (sum_le_sum fun j _ => h1 j).trans ?_
  rw [sum_add_distrib, sum_add_distrib, sum_add_distrib, ← mul_sum, ← mul_sum, ← mul_sum, ← mul_sum, ← mul_sum, hx.2]
  have hu := hr.unit
  have h2 := mul_le_mul_of_nonneg_left hrow (by linarith : 0 ≤ 1 + u)
  have h3 := mul_le_mul_of_nonneg_left hnorm hu
  have h4 := mul_le_mul_of_nonneg_left hψ hu
  have h5 := mul_le_mul_of_nonneg_left hr.small hu
  linarith

/-- A product of two values with relative errors, rounded after each operation. -/
theorem product_error {fl : K → K} {u ψ A m x x' y : K} (hfl : ∀ z, |fl z - z| ≤ u * |z|) (hu : 0 ≤ u) (hψ0 : 0 ≤ ψ)
    (hu1 : u ≤ 1 / 64) (hψ1 : ψ ≤ 1 / 8) (hA : A ≤ 3 / 4) (hm : 0 ≤ m) (hx : 0 < x) (hx' : |x' - x| ≤ ψ * x)
    (hy : |y - x * m| ≤ A * (x * m)) : |fl (fl y * fl (1 / x')) - m| ≤ (A + 4 * (8 * u + ψ)) * m := by
  rcases hm.eq_or_lt with rfl | hm
  · rw [mul_zero, mul_zero, sub_zero] at hy
    have h0 : y = 0 := abs_eq_zero.1 (le_antisymm hy (abs_nonneg _))
    have h1 : fl 0 = 0 := by
      have := hfl 0
      rw [sub_zero, abs_zero, mul_zero] at this
      exact abs_eq_zero.1 (le_antisymm this (abs_nonneg _))
    rw [h0, h1, zero_mul, h1, mul_zero, sub_zero, abs_zero]
  have hxm : 0 < x * m := mul_pos hx hm
  have hA0 : 0 ≤ A := by
    by_contra hn
    have := mul_neg_of_neg_of_pos (not_le.1 hn) hxm
    linarith [abs_nonneg (y - x * m)]
  have hx1 := abs_le.1 hx'
  have hψx : ψ * x ≤ 1 / 8 * x := mul_le_mul_of_nonneg_right hψ1 hx.le
  have hxp : 7 / 8 * x ≤ x' := by linarith
  have hx'0 : 0 < x' := by linarith
  -- the reciprocal
  have hg : |x * (1 / x') - 1| ≤ 8 / 7 * ψ := by
    have e : x * (1 / x') - 1 = -(x' - x) / x' := by field_simp; ring
    rw [e, abs_div, abs_neg, abs_of_pos hx'0, div_le_iff₀ hx'0]
    have := mul_le_mul_of_nonneg_left hxp hψ0
    linarith
  have hv : |x * fl (1 / x') - 1| ≤ 8 / 7 * ψ + u * (1 + 8 / 7 * ψ) := by
    have h1 := hfl (1 / x')
    have h2 := mul_le_mul_of_nonneg_left h1 hx.le
    have h3 : |x * fl (1 / x') - x * (1 / x')| ≤ u * |x * (1 / x')| := by
      rw [← mul_sub, abs_mul, abs_mul, abs_of_pos hx]
      linarith
    have h4 : |x * (1 / x')| ≤ 1 + 8 / 7 * ψ := by
      have := abs_add_le 1 (x * (1 / x') - 1)
      rw [add_sub_cancel, abs_one] at this
      linarith
    have h5 := mul_le_mul_of_nonneg_left h4 hu
    have h6 := abs_sub_le (x * fl (1 / x')) (x * (1 / x')) 1
    linarith
  -- the difference
  have hy1 : |fl y - x * m| ≤ (A + u * (1 + A)) * (x * m) := by
    have h1 := hfl y
    have h2 : |y| ≤ (1 + A) * (x * m) := by
      have := abs_add_le (x * m) (y - x * m)
      rw [add_sub_cancel, abs_of_pos hxm] at this
      linarith
    have h3 := mul_le_mul_of_nonneg_left h2 hu
    have h4 := abs_sub_le (fl y) y (x * m)
    linarith
  obtain ⟨a, ha⟩ : ∃ a, a = A + u * (1 + A) := ⟨_, rfl⟩
  obtain ⟨b, hb⟩ : ∃ b, b = 8 / 7 * ψ + u * (1 + 8 / 7 * ψ) := ⟨_, rfl⟩
  obtain ⟨V, hV⟩ : ∃ V, V = x * fl (1 / x') := ⟨_, rfl⟩
  obtain ⟨Y, hY⟩ : ∃ Y, Y = fl y / x := ⟨_, rfl⟩
  rw [← hV, ← hb] at hv
  rw [← ha] at hy1
  have hY1 : |Y - m| ≤ a * m := by
    have e : Y - m = (fl y - x * m) / x := by rw [hY]; field_simp
    rw [e, abs_div, abs_of_pos hx, div_le_iff₀ hx]
    linarith
  have e : fl y * fl (1 / x') = Y * V := by rw [hY, hV]; field_simp
  rw [e]
  have ha0 : 0 ≤ a := by rw [ha]; positivity
  have hb0 : 0 ≤ b := by rw [hb]; positivity
  have hYm : |Y| ≤ (1 + a) * m := by
    have := abs_add_le m (Y - m)
    rw [add_sub_cancel, abs_of_pos hm] at this
    linarith
  have hYV : |Y * V - m| ≤ (a + (1 + a) * b) * m := by
    have h1 : |Y * V - m| ≤ |Y| * |V - 1| + |Y - m| := by
      have := abs_add_le (Y * (V - 1)) (Y - m)
      rw [abs_mul] at this
      rwa [show Y * (V - 1) + (Y - m) = Y * V - m by ring] at this
    have h2 := mul_le_mul hYm hv (abs_nonneg _) (mul_nonneg (by linarith) hm.le)
    linarith
  obtain ⟨d, hd⟩ : ∃ d, d = a + (1 + a) * b := ⟨_, rfl⟩
  rw [← hd] at hYV
  have h1 := hfl (Y * V)
  have h2 : |Y * V| ≤ (1 + d) * m := by
    have := abs_add_le m (Y * V - m)
    rw [add_sub_cancel, abs_of_pos hm] at this
    linarith
  have h3 := mul_le_mul_of_nonneg_left h2 hu
  have h4 := abs_sub_le (fl (Y * V)) (Y * V) m
  have h5 : |fl (Y * V) - m| ≤ (d + u * (1 + d)) * m := by linarith
  refine h5.trans (mul_le_mul_of_nonneg_right ?_ hm.le)
  have ha1 : a ≤ A + 7 / 4 * u := by
    have := mul_le_mul_of_nonneg_left hA hu
    linarith
  have hb1 : b ≤ 8 / 7 * ψ + 8 / 7 * u := by
    have := mul_le_mul_of_nonneg_left hψ1 hu
    linarith
  have ha2 : 1 + a ≤ 2 := by linarith
  have hd1 : d ≤ A + 7 / 4 * u + 16 / 7 * ψ + 16 / 7 * u := by
    have := mul_le_mul_of_nonneg_right ha2 hb0
    linarith
  have hd2 : 1 + d ≤ 3 := by linarith
  have := mul_le_mul_of_nonneg_left hd2 hu
  linarith

/-- C173. **Mean first passage times between all states with rounding**: if the probabilities, the stationary
distribution, the operations and the inverse are accurate up to `δ`, `ψ`, `u` and `e`, the relative error of every mean
passage time is at most a small multiple of these numbers times the largest mean passage time to the state. -/
theorem C173_all_states {c : MC K} {P : Matrix (Fin c.n) (Fin c.n) K} (hP : IsStochastic fun i j => P i j)
    (hirr : Irreducible fun i j => P i j) {fl : K → K} {u δ e : K} (hr : Rounds fl u δ e) (hc : RoundedFrom δ c.p P)
    {inv : Inverter K} (hs : inv.Stable e) {F : Arith K} {nx : Nx c.n} {x' x : Fin c.n → K} {ls : List (Fin c.n → K)}
    (hpi : piF F c nx.sccs = .ok (x' :: ls)) (hx : IsStationary (fun i j => P i j) x) {ψ : K} (hψ : 0 ≤ ψ)
    (hx' : ∀ j, |x' j - x j| ≤ ψ * x j) {t' : Fin c.n → Fin c.n → K} (h : mfptAllF fl F inv c nx = .ok (some t'))
    {j : Fin c.n} {m : Fin c.n → K} (hm : IsPassageTime (fun i j => P i j) (· = j) m) {T : K} (hT : ∀ i, m i ≤ T)
    (hη : (4 * e + 8 * u + δ + ψ) * (T + 1) ≤ 1 / 8) (i : Fin c.n) :
    |t' i j - m i| ≤ 10 * (4 * e + 8 * u + δ + ψ) * (T + 1) * m i := by
  have hB : ∀ i, ∃ b, b = j ∧ Reach (fun i j => P i j) i b := fun i => ⟨j, rfl, hirr i j⟩
  have hm0 := passageTime_ge_zero hP hB hm
  have hT0 : 0 ≤ T := (hm0 j).trans (hT j)
  have hu := hr.unit
  have hδ := hr.data
  have he := hr.solver
  obtain ⟨η, hηe⟩ : ∃ η, η = 4 * e + 8 * u + δ + ψ := ⟨_, rfl⟩
  rw [← hηe] at hη ⊢
  have hη0 : 0 ≤ η := by linarith
  have hη1 : η ≤ 1 / 8 := by
    have := mul_nonneg hη0 hT0
    linarith
  unfold mfptAllF at h
  split at h
  swap
  · rw [R.pure_ok] at h
    cases h
  rw [R.bind_ok] at h
  obtain ⟨l, hl, h⟩ := h
  rw [hpi] at hl
  cases hl
  rw [R.bind_ok] at h
  obtain ⟨y, hy, h⟩ := h
  have hy := orRaise_ok hy
  rw [List.head?_cons, Option.some.injEq] at hy
  rw [← hy, R.bind_ok] at h
  obtain ⟨Z, hZ, h⟩ := h
  have hZ := orRaise_ok hZ
  rw [R.pure_ok, Option.some.injEq] at h
  have ht : t' i j = if i = j then 0 else fl (fl (Z j j - Z i j) * fl (1 / x' j)) := by rw [← h]
  rw [ht]
  by_cases hij : i = j
  · rw [if_pos hij, hm.1 i hij, sub_zero, abs_zero, mul_zero]
  rw [if_neg hij]
  have : Nonempty (Fin c.n) := ⟨i⟩
  obtain ⟨j0, hj0⟩ := Finite.exists_max fun k => |Z k j|
  obtain ⟨X, hX⟩ : ∃ X, X = |Z j0 j| := ⟨_, rfl⟩
  have hxX : ∀ k, |Z k j| ≤ X := fun k => by rw [hX]; exact hj0 k
  have hX0 : 0 ≤ X := by rw [hX]; exact abs_nonneg _
  have hA : ∀ a, ∑ k, |groupMatrixF fl c.p x' a k - ((if a = k then 1 else 0) - P a k + x k)| ≤ 8 * u + δ + ψ :=
    fun a => group_row_error hr hP hc hx.1 (by linarith) hx' a
  have hrow : ∀ a, ∑ k, |groupMatrixF fl c.p x' a k| ≤ 4 := fun a => by
    have h2 := row_norm hP Function.injective_id a
    simp only [id_eq] at h2
    have h3 := hA a
    calc ∑ k, |groupMatrixF fl c.p x' a k| ≤ ∑ k, (|groupMatrixF fl c.p x' a k - ((if a = k then 1 else 0) - P a k + x k)|
          + (|(if a = k then 1 else 0) - P a k| + x k)) := by
          refine sum_le_sum fun k _ => ?_
          have h4 := abs_add_le (groupMatrixF fl c.p x' a k - ((if a = k then 1 else 0) - P a k + x k))
            ((if a = k then 1 else 0) - P a k + x k)
          have h5 := abs_add_le ((if a = k then 1 else 0) - P a k) (x k)
          rw [sub_add_cancel] at h4
          rw [abs_of_nonneg (hx.1.1 k)] at h5
          linarith
      _ ≤ 4 := by
          rw [sum_add_distrib, sum_add_distrib, hx.1.2]
          linarith
  have hres : ∀ a, |Z a j - ∑ k, P a k * Z k j + ∑ k, x k * Z k j - (if a = j then 1 else 0)| ≤ η * X := fun a => by
    have h2 := hs _ _ _ hZ 4 X j hrow hxX a
    have h3 := row_apply (hA a) hxX hX0
    have h4 : ∑ k, ((if a = k then 1 else 0) - P a k + x k) * Z k j = Z a j - ∑ k, P a k * Z k j + ∑ k, x k * Z k j := by
      simp only [add_mul, sub_mul, sum_add_distrib, sum_sub_distrib, ite_mul, one_mul, zero_mul, sum_ite_eq, mem_univ,
        if_true]
    rw [h4, abs_sub_comm] at h3
    have h5 := abs_sub_le (Z a j - ∑ k, P a k * Z k j + ∑ k, x k * Z k j) (∑ k, groupMatrixF fl c.p x' a k * Z k j)
      (if a = j then 1 else 0)
    rw [hηe]
    linarith
  obtain ⟨hd, hz⟩ := column_error hP hx (fun i => hirr i j) hm hT (z := fun k => Z k j) hres
  have hXT : X ≤ 2 * (x j * (T + 1)) := by
    have h2 := hz j0
    rw [← hX] at h2
    have h3 := mul_le_mul_of_nonneg_right hη hX0
    linarith
  have hm1 : 1 ≤ m i := by
    have h3 : 0 ≤ ∑ k, P i k * m k := sum_nonneg fun k _ => mul_nonneg (hP.1 i k) (hm0 k)
    linarith [hm.2 i hij]
  have hxj : 0 < x j := irreducible_stationary_pos hP hirr hx j
  have hdi : |Z j j - Z i j - x j * m i| ≤ 6 * (η * (T + 1)) * (x j * m i) := by
    refine (hd i).trans ?_
    have h2 : η * X * (2 * m i + 1) ≤ η * X * (3 * m i) := mul_le_mul_of_nonneg_left (by linarith) (mul_nonneg hη0 hX0)
    have h3 := mul_le_mul_of_nonneg_right (mul_le_mul_of_nonneg_left hXT hη0) (by linarith : 0 ≤ 3 * m i)
    linarith
  refine (product_error hr.near hu hψ (by linarith) (by linarith) (by linarith) (hm0 i) hxj (hx' j) hdi).trans ?_
  refine mul_le_mul_of_nonneg_right ?_ (hm0 i)
  have := mul_nonneg hη0 hT0
  linarith

/-- C173. With the precision of doubles, an inverse and a stationary distribution with relative errors of at most
`2 ^ (-45)` and mean passage times of at most 500 steps, nine digits of every mean passage time are right. -/
theorem C173_digits {c : MC K} {P : Matrix (Fin c.n) (Fin c.n) K} (hP : IsStochastic fun i j => P i j)
    (hirr : Irreducible fun i j => P i j) {fl : K → K} (hfl : ∀ z, |fl z - z| ≤ 1 / 2 ^ 53 * |z|)
    (hc : RoundedFrom (1 / 2 ^ 53) c.p P) {inv : Inverter K} (hs : inv.Stable (1 / 2 ^ 45)) {F : Arith K} {nx : Nx c.n}
    {x' x : Fin c.n → K} {ls : List (Fin c.n → K)} (hpi : piF F c nx.sccs = .ok (x' :: ls))
    (hx : IsStationary (fun i j => P i j) x) (hx' : ∀ j, |x' j - x j| ≤ 1 / 2 ^ 45 * x j) {t' m : Fin c.n → Fin c.n → K}
    (h : mfptAllF fl F inv c nx = .ok (some t')) (hm : ∀ j, IsPassageTime (fun i j => P i j) (· = j) fun i => m i j)
    (hT : ∀ i j, m i j ≤ 500) (i j : Fin c.n) : |t' i j - m i j| ≤ 1 / 10 ^ 9 * m i j := by
  have hr : Rounds fl (1 / 2 ^ 53 : K) (1 / 2 ^ 53) (1 / 2 ^ 45) :=
    ⟨by positivity, by positivity, by positivity, by norm_num, by norm_num, hfl⟩
  have h0 := passageTime_ge_zero hP (B := (· = j)) (fun i => ⟨j, rfl, hirr i j⟩) (hm j) i
  refine (C173_all_states hP hirr hr hc hs hpi hx (by positivity) hx' h (hm j) (fun i => hT i j) (by norm_num) i).trans ?_
  exact mul_le_mul_of_nonneg_right (by norm_num) h0

/-- C173. With the stationary distribution that the program computes in double arithmetic (C169), for chains with
probabilities that are not too small. -/
theorem C173_double_partial {c : MC ℚ} (hc : c.Valid) {d : ℕ} (hn : (d + 2) * c.n ≤ 500)
    (hd : ∀ i j, 0 < c.p i j → 1 / 2 ^ d ≤ c.p i j) {fl : ℚ → ℚ} (hfl : ∀ z, |fl z - z| ≤ 1 / 2 ^ 53 * |z|)
    {inv : Inverter ℚ} {e : ℚ} (he : 0 ≤ e) (hs : inv.Stable e) {nx : Nx c.n} (hx : nx.Sound c.p)
    {t' m : Fin c.n → Fin c.n → ℚ} (h : mfptAllF fl (Arith.rounded double) inv c nx = .ok (some t'))
    (hm : ∀ j, IsPassageTime (fun i j => c.p i j) (· = j) fun i => m i j) {T : ℚ} (hT : ∀ i j, m i j ≤ T)
    (hη : (4 * e + (8 + 6 * (c.n : ℚ) ^ 3) / 2 ^ 53) * (T + 1) ≤ 1 / 8) (i j : Fin c.n) :
    |t' i j - m i j| ≤ 10 * (4 * e + (8 + 6 * (c.n : ℚ) ^ 3) / 2 ^ 53) * (T + 1) * m i j := by
  have hirr : Irreducible fun i j => c.p i j := by
    have hE : isErgodic c nx = true := by
      by_contra hne
      unfold mfptAllF at h
      rw [if_neg hne, R.pure_ok] at h
      cases h
    exact ((isErgodic_iff hc hx).1 hE).1
  obtain ⟨l, h1, h2⟩ := C169_stationary_partial hc hn hd hx.sccs
  have hr : Rounds fl (1 / 2 ^ 53 : ℚ) 0 e := ⟨by positivity, le_rfl, he, by norm_num, by norm_num, hfl⟩
  have h0 : RoundedFrom 0 c.p c.p := fun i j => by rw [sub_self, abs_zero, zero_mul]
  have hE : 4 * e + 8 * (1 / 2 ^ 53) + 0 + 6 * (c.n : ℚ) ^ 3 / 2 ^ 53 = 4 * e + (8 + 6 * (c.n : ℚ) ^ 3) / 2 ^ 53 := by ring
  generalize recurrentIdx c.p nx.sccs = L at h2
  cases h2 with
  | nil =>
    unfold mfptAllF at h
    split at h
    · rw [h1] at h
      cases h
    · rw [R.pure_ok] at h
      cases h
  | cons hC _ =>
    obtain ⟨x, hx, -, hk⟩ := hC
    have := C173_all_states hc.2.1 hirr hr h0 hs h1 hx (by positivity) (fun k => (hk k).2) h (hm j) (fun i => hT i j)
      (by rw [hE]; exact hη) i
    rwa [hE] at this

/-! ## Passage times between sets of states -/

/-- The weights of the origins. -/
theorem weight_error {fl : K → K} {u ψ w : K} (hfl : ∀ z, |fl z - z| ≤ u * |z|) (hu : 0 ≤ u) (hψ : 0 ≤ ψ) (hw : 0 ≤ w)
    (hψ1 : ψ ≤ 1 / 64) (hw1 : w ≤ 1 / 64) {x' x s' s : K} (hx : 0 ≤ x) (hs : 0 < s)
    (hx' : |x' - x| ≤ ψ * x) (hs' : |s' - s| ≤ (ψ + w * (1 + ψ)) * s) :
    |fl (x' / s') - x / s| ≤ (3 * ψ + 2 * w + 2 * u) * (x / s) := by
  obtain ⟨σ, hσ⟩ : ∃ σ, σ = ψ + w * (1 + ψ) := ⟨_, rfl⟩
  rw [← hσ] at hs'
  have hσ1 : σ ≤ ψ + 65 / 64 * w := by
    have := mul_le_mul_of_nonneg_left hψ1 hw
    linarith
  have hσ0 : 0 ≤ σ := by rw [hσ]; positivity
  have h1 := abs_le.1 hs'
  have h2 : σ * s ≤ 1 / 31 * s := mul_le_mul_of_nonneg_right (by linarith) hs.le
  have h3 : 30 / 31 * s ≤ s' := by linarith
  have hs0 : 0 < s' := by linarith
  have hq : 0 ≤ x / s := div_nonneg hx hs.le
  have h4 : |x' / s' - x / s| ≤ 31 / 30 * (ψ + σ) * (x / s) := by
    have e : x' / s' - x / s = ((x' - x) * s - x * (s' - s)) / (s' * s) := by field_simp; ring
    have h5 : |(x' - x) * s - x * (s' - s)| ≤ (ψ + σ) * (x * s) := by
      have h6 := abs_sub ((x' - x) * s) (x * (s' - s))
      rw [abs_mul, abs_mul, abs_of_pos hs, abs_of_nonneg hx] at h6
      have h7 := mul_le_mul_of_nonneg_right hx' hs.le
      have h8 := mul_le_mul_of_nonneg_left hs' hx
      linarith
    rw [e, abs_div, abs_of_pos (mul_pos hs0 hs), div_le_iff₀ (mul_pos hs0 hs)]
    have e2 : 31 / 30 * (ψ + σ) * (x / s) * (s' * s) = (ψ + σ) * x * (31 / 30 * s') := by field_simp
    rw [e2]
    have h6 := mul_le_mul_of_nonneg_left (by linarith : s ≤ 31 / 30 * s') (mul_nonneg (add_nonneg hψ hσ0) hx)
    linarith
  have h5 := hfl (x' / s')
  have h6 : |x' / s'| ≤ 2 * (x / s) := by
    have h7 := abs_add_le (x / s) (x' / s' - x / s)
    rw [add_sub_cancel, abs_of_nonneg hq] at h7
    have h8 : 31 / 30 * (ψ + σ) * (x / s) ≤ 1 * (x / s) := mul_le_mul_of_nonneg_right (by linarith) hq
    linarith
  have h7 := mul_le_mul_of_nonneg_left h6 hu
  have h8 := abs_sub_le (fl (x' / s')) (x' / s') (x / s)
  have h9 : 31 / 30 * (ψ + σ) * (x / s) ≤ (3 * ψ + 2 * w) * (x / s) := mul_le_mul_of_nonneg_right (by linarith) hq
  linarith

/-- A product of weights with relative errors and values with relative and absolute errors. -/
theorem weighted_error {k : ℕ} {dot : DotProduct K} {v : K} (hd : dot.Stable v) (hv : 0 ≤ v) {μ' μ t' m : Fin k → K}
    {ζ E : K} (hζ0 : 0 ≤ ζ) (hζ : ζ ≤ 1 / 8) (hE0 : 0 ≤ E) (hE : E ≤ 1) (hμ0 : ∀ i, 0 ≤ μ i) (hμ1 : ∑ i, μ i = 1)
    (hm : ∀ i, 0 ≤ m i) (hμ : ∀ i, |μ' i - μ i| ≤ ζ * μ i) (ht : ∀ i, |t' i - m i| ≤ E * (m i + 1)) :
    |dot k μ' t' - ∑ i, μ i * m i| ≤ (2 * E + ζ + 3 * v) * (∑ i, μ i * m i + 1) := by
  have hμ' : ∀ i, |μ' i| ≤ 9 / 8 * μ i := fun i => by
    have h1 := abs_add_le (μ i) (μ' i - μ i)
    rw [add_sub_cancel, abs_of_nonneg (hμ0 i)] at h1
    have := mul_le_mul_of_nonneg_right hζ (hμ0 i)
    linarith [hμ i]
  have ht' : ∀ i, |t' i| ≤ 2 * (m i + 1) := fun i => by
    have h1 := abs_add_le (m i) (t' i - m i)
    rw [add_sub_cancel, abs_of_nonneg (hm i)] at h1
    have := mul_le_mul_of_nonneg_right hE (by linarith [hm i] : 0 ≤ m i + 1)
    linarith [ht i, hm i]
  have hsum : ∑ i, μ i * (m i + 1) = ∑ i, μ i * m i + 1 := by
    simp only [mul_add, mul_one, sum_add_distrib, hμ1]
  have hb : 0 ≤ ∑ i, μ i * m i := sum_nonneg fun i _ => mul_nonneg (hμ0 i) (hm i)
  have h1 : |∑ i, μ' i * t' i - ∑ i, μ i * m i| ≤ (2 * E + ζ) * (∑ i, μ i * m i + 1) := by
    rw [← sum_sub_distrib, ← hsum, mul_sum]
    refine (abs_sum_le_sum_abs _ _).trans (sum_le_sum fun i _ => ?_)
    have e : μ' i * t' i - μ i * m i = μ' i * (t' i - m i) + (μ' i - μ i) * m i := by ring
    rw [e]
    refine (abs_add_le _ _).trans ?_
    rw [abs_mul, abs_mul, abs_of_nonneg (hm i)]
    have hm1 : 0 ≤ m i + 1 := by linarith [hm i]
    have h2 := mul_le_mul (hμ' i) (ht i) (abs_nonneg _) (mul_nonneg (by norm_num) (hμ0 i))
    have h3 := mul_le_mul_of_nonneg_right (hμ i) (hm i)
    have h4 : 0 ≤ E * (μ i * (m i + 1)) := mul_nonneg hE0 (mul_nonneg (hμ0 i) hm1)
    have h5 : 0 ≤ ζ * μ i := mul_nonneg hζ0 (hμ0 i)
    linarith
  have h2 : ∑ i, |μ' i| * |t' i| ≤ 3 * (∑ i, μ i * m i + 1) := by
    rw [← hsum, mul_sum]
    refine sum_le_sum fun i _ => ?_
    have hm1 : 0 ≤ m i + 1 := by linarith [hm i]
    have h3 := mul_le_mul (hμ' i) (ht' i) (abs_nonneg _) (mul_nonneg (by norm_num) (hμ0 i))
    have h4 : 0 ≤ μ i * (m i + 1) := mul_nonneg (hμ0 i) hm1
    linarith
  have h3 := hd k μ' t'
  have h4 := mul_le_mul_of_nonneg_left h2 hv
  have h5 := abs_sub_le (dot k μ' t') (∑ i, μ' i * t' i) (∑ i, μ i * m i)
  linarith

/-- The sum of the probabilities of the origins. -/
theorem origins_sum {n : ℕ} {sum : List K → K} {w ψ : K} (hw0 : 0 ≤ w) (hw : StableSum sum w) {x' x : Fin n → K}
    (hx0 : ∀ i, 0 ≤ x i) (hx' : ∀ i, |x' i - x i| ≤ ψ * x i) (O : List (Fin n)) :
    |sum (O.map x') - (O.map x).sum| ≤ (ψ + w * (1 + ψ)) * (O.map x).sum := by
  have h1 := hw (O.map x')
  have h2 : |(O.map x').sum - (O.map x).sum| ≤ ψ * (O.map x).sum := by
    induction O with
    | nil => simp
    | cons a l ih =>
      simp only [List.map_cons, List.sum_cons]
      have h3 := abs_add_le (x' a - x a) ((l.map x').sum - (l.map x).sum)
      rw [show x' a - x a + ((l.map x').sum - (l.map x).sum) = x' a + (l.map x').sum - (x a + (l.map x).sum) by ring] at h3
      have h4 := ih (hw (l.map x'))
      have h5 := hx' a
      linarith
  have h3 : ((O.map x').map fun z => |z|).sum ≤ (1 + ψ) * (O.map x).sum := by
    clear h1 h2
    induction O with
    | nil => simp
    | cons a l ih =>
      simp only [List.map_cons, List.sum_cons]
      have h4 := abs_add_le (x a) (x' a - x a)
      rw [add_sub_cancel, abs_of_nonneg (hx0 a)] at h4
      linarith [hx' a]
  have h4 := mul_le_mul_of_nonneg_left h3 hw0
  have h5 := abs_sub_le (sum (O.map x')) (O.map x').sum (O.map x).sum
  linarith

set_option linter.unusedSectionVars false in
theorem list_sum_get {α : Type} (l : List α) (f : α → K) : (l.map f).sum = ∑ k : Fin l.length, f (l.get k) := by
  induction l with
  | nil => simp
  | cons a l ih =>
    rw [List.map_cons, List.sum_cons, ih]
    exact (Fin.sum_univ_succ fun k : Fin (l.length + 1) => f ((a :: l).get k)).symm

/-- C173. **Mean first passage times between sets of states with rounding**: the weighted mean of the passage times from
the origins has an error that is small compared with its value plus one step. -/
theorem C173_between {c : MC K} {P : Matrix (Fin c.n) (Fin c.n) K} (hP : IsStochastic fun i j => P i j)
    (hirr : Irreducible fun i j => P i j) {fl : K → K} {u δ e : K} (hr : Rounds fl u δ e) (hc : RoundedFrom δ c.p P)
    {solve : Solver K} (hs : solve.Stable e) {sum : List K → K} {w : K} (hw0 : 0 ≤ w) (hw : StableSum sum w)
    {dot : DotProduct K} {v : K} (hv0 : 0 ≤ v) (hv : dot.Stable v) {F : Arith K} {nx : Nx c.n} {x' x : Fin c.n → K}
    {ls : List (Fin c.n → K)} (hpi : piF F c nx.sccs = .ok (x' :: ls)) (hx : IsStationary (fun i j => P i j) x) {ψ : K}
    (hψ : 0 ≤ ψ) (hx' : ∀ j, |x' j - x j| ≤ ψ * x j) {O S : List (Fin c.n)} (hO : O ≠ []) (hS : ∃ i, i ∈ S) {b' : K}
    (h : mfptBetweenF fl F solve sum dot c nx O S = .ok (some b')) {m : Fin c.n → K}
    (hm : IsPassageTime (fun i j => P i j) (· ∈ S) m) {T : K} (hT : ∀ i, m i ≤ T)
    (hη : (3 * e + (3 * u + δ)) * (T + 1) ≤ 1 / 2) (hu1 : u ≤ 1 / 64) (hψ1 : ψ ≤ 1 / 64) (hw1 : w ≤ 1 / 64) :
    |b' - (O.map fun i => x i / (O.map x).sum * m i).sum| ≤
      (4 * (3 * e + (3 * u + δ)) * T + (3 * ψ + 2 * w + 2 * u) + 3 * v) *
        ((O.map fun i => x i / (O.map x).sum * m i).sum + 1) := by
  have hB : ∀ i, ∃ b, b ∈ S ∧ Reach (fun i j => P i j) i b := fun i => by
    obtain ⟨b, hb⟩ := hS
    exact ⟨b, hb, hirr i b⟩
  have hm0 := passageTime_ge_zero hP hB hm
  have hu := hr.unit
  have hδ := hr.data
  have he := hr.solver
  have hpos := irreducible_stationary_pos hP hirr hx
  unfold mfptBetweenF at h
  split at h
  swap
  · rw [R.pure_ok] at h
    cases h
  rw [R.bind_ok] at h
  obtain ⟨l, hl, h⟩ := h
  rw [hpi] at hl
  cases hl
  rw [R.bind_ok] at h
  obtain ⟨y, hy, h⟩ := h
  have hy := orRaise_ok hy
  rw [List.head?_cons, Option.some.injEq] at hy
  rw [← hy, R.bind_ok] at h
  obtain ⟨o, ho, h⟩ := h
  rw [R.bind_ok] at h
  obtain ⟨t, ht, h⟩ := h
  rw [orRaise_ok ht] at ho
  rw [R.pure_ok, Option.some.injEq] at h
  have hT0 : 0 ≤ T := by
    obtain ⟨b, -⟩ := hS
    exact (hm0 b).trans (hT b)
  have hη0 : 0 ≤ 3 * e + (3 * u + δ) := by linarith
  have hsum : 0 < (O.map x).sum := by
    refine List.sum_pos _ (fun z hz => ?_) (by simpa using hO)
    obtain ⟨i, -, rfl⟩ := List.mem_map.1 hz
    exact hpos i
  have hlist : ∀ f : Fin c.n → K, (O.map f).sum = ∑ k : Fin O.length, f (O.get k) := list_sum_get O
  rw [← h, hlist fun i => x i / (O.map x).sum * m i]
  have key := weighted_error (k := O.length) hv hv0 (μ' := fun k => fl (x' (O.get k) / sum (O.map x')))
    (μ := fun k => x (O.get k) / (O.map x).sum) (t' := fun k => t (O.get k)) (m := fun k => m (O.get k))
    (ζ := 3 * ψ + 2 * w + 2 * u) (E := 2 * (3 * e + (3 * u + δ)) * T) (by linarith) (by linarith) (by positivity)
    (by linarith) (fun k => div_nonneg (hpos _).le hsum.le)
    (by rw [← sum_div, ← hlist x, div_self hsum.ne']) (fun k => hm0 _)
    (fun k => weight_error hr.near hu hψ hw0 hψ1 hw1 (hpos _).le hsum (hx' _)
      (origins_sum hw0 hw (fun i => (hpos i).le) hx' O))
    (fun k => C170_passage_times hP hirr hr hc hs hS ho hm hT hη _)
  refine key.trans (le_of_eq ?_)
  ring

theorem piF_exact (c : MC K) (sccs : List (List (Fin c.n))) : piF Arith.exact c sccs = pi c sccs := by
  have h : piClassF Arith.exact c.p = piClass c.p := by
    funext C
    unfold piClassF piClass
    simp only [C147_exact]
  unfold piF pi
  simp only [C147_exact, h]

/-- C173. Without rounding and with exact solvers these are the programs of the exact model. -/
theorem C173_exact (c : MC K) (nx : Nx c.n) (O S : List (Fin c.n)) :
    mfptAllF id Arith.exact (fun _ => npInv) c nx = mfptAll c nx ∧
    mfptBetweenF id Arith.exact (fun _ => npSolve) List.sum (fun _ a b => ∑ i, a i * b i) c nx O S = mfptBetween c nx O S := by
  have hpi := piF_exact c nx.sccs
  constructor
  · unfold mfptAllF mfptAll pi0
    rw [hpi, bind_assoc]
    split
    · congr 1
      funext l
      congr 1
      funext x
      have : groupMatrixF id c.p x = 1 - c.p + tile x := by
        funext i j
        unfold groupMatrixF
        rw [eyeMinusF_id]
        rfl
      rw [this]
      congr 1
      funext z
      congr 2
      funext i j
      split
      · rfl
      · next hij =>
        rw [Matrix.one_apply_ne hij]
        simp only [id_eq]
        ring
    · rfl
  · unfold mfptBetweenF mfptBetween pi0
    rw [hpi, bind_assoc, (C170_exact c nx S nx.sccs).1]
    split
    · congr 1
      funext l
      congr 1
      funext x
      congr 1
      funext t
      congr 1
      funext t
      congr 2
      have hlist : ∀ f : Fin c.n → K, (O.map f).sum = ∑ k : Fin O.length, f (O.get k) := list_sum_get O
      rw [hlist fun i => x i / (O.map x).sum * t i]
      rfl
    · rfl

/-- The exact inverse followed by a rounding. -/
noncomputable def roundedInverter (fl : K → K) : Inverter K := fun _ A => (npInv A).map fun Z => Z.map fl

/-- The contract of the inverse holds for rounded exact inverses. -/
theorem roundedInverter_stable {fl : K → K} {u : K} (hu : 0 ≤ u) (hu2 : u ≤ 1 / 2) (hfl : ∀ z, |fl z - z| ≤ u * |z|) :
    (roundedInverter fl).Stable (2 * u) := by
  intro m A Z hZ N X j hN hX i
  unfold roundedInverter at hZ
  rw [Option.map_eq_some_iff] at hZ
  obtain ⟨Y, hY, rfl⟩ := hZ
  simp only [Matrix.map_apply] at hX ⊢
  have hex := (C170_exact_stable (K := K)).2.1 m A Y hY N (∑ k, |Y k j|) j hN
    (fun k => single_le_sum (f := fun k => |Y k j|) (fun k _ => abs_nonneg _) (mem_univ k)) i
  rw [zero_mul] at hex
  have hex := sub_eq_zero.1 (abs_eq_zero.1 (le_antisymm hex (abs_nonneg _)))
  have hX0 : 0 ≤ X := (abs_nonneg _).trans (hX i)
  have hyX : ∀ k, |fl (Y k j) - Y k j| ≤ 2 * u * X := fun k => by
    have h1 : |Y k j| ≤ |fl (Y k j)| + |fl (Y k j) - Y k j| := by
      have := abs_sub (fl (Y k j)) (fl (Y k j) - Y k j)
      rwa [sub_sub_cancel] at this
    have h2 := hfl (Y k j)
    have h3 := hX k
    have h4 := mul_le_mul_of_nonneg_right hu2 (abs_nonneg (Y k j))
    have h5 : |Y k j| ≤ 2 * X := by linarith
    have h6 := mul_le_mul_of_nonneg_left h5 hu
    linarith
  rw [← hex, ← sum_sub_distrib]
  refine (abs_sum_le_sum_abs _ _).trans ?_
  calc ∑ k, |A i k * fl (Y k j) - A i k * Y k j| ≤ ∑ k, |A i k| * (2 * u * X) := sum_le_sum fun k _ => by
        rw [← mul_sub, abs_mul]
        exact mul_le_mul_of_nonneg_left (hyX k) (abs_nonneg _)
    _ = (∑ k, |A i k|) * (2 * u * X) := (sum_mul _ _ _).symm
    _ ≤ N * (2 * u * X) := mul_le_mul_of_nonneg_right (hN i) (mul_nonneg (by linarith) hX0)
    _ = 2 * u * (N * X) := by ring

set_option linter.unusedSectionVars false in
theorem roundedInverter_some (fl : K → K) {n : ℕ} {A : Matrix (Fin n) (Fin n) K} (hd : A.det ≠ 0) :
    ∃ Z, roundedInverter fl n A = some Z := by
  unfold roundedInverter npInv
  rw [if_neg hd]
  exact ⟨_, rfl⟩

/-- The stationary distribution that the program computes for `exThird`. -/
def exThirdPi : Fin 2 → ℚ := match piF (Arith.rounded double) exThird exThirdNx.sccs with
  | .ok (x :: _) => x
  | _ => fun _ => 0

/-- The hypotheses of `C173_digits` can be met: the inverse rounds to doubles, the stationary distribution is computed in
double arithmetic, the program returns a result, and the mean passage times are 3/2 and 1. -/
theorem C173_instance : (roundedInverter binary64).Stable (1 / 2 ^ 52) ∧
    RoundedFrom (1 / 2 ^ 53) exThird.p !![1 / 3, 2 / 3; 1, 0] ∧
    piF (Arith.rounded double) exThird exThirdNx.sccs = .ok [exThirdPi] ∧
    IsStationary (fun i j : Fin 2 => (!![1 / 3, 2 / 3; 1, 0] : Matrix (Fin 2) (Fin 2) ℚ) i j) ![3 / 5, 2 / 5] ∧
    (∀ j : Fin 2, |exThirdPi j - (![3 / 5, 2 / 5] : Fin 2 → ℚ) j| ≤ 1 / 2 ^ 45 * (![3 / 5, 2 / 5] : Fin 2 → ℚ) j) ∧
    (∀ j : Fin 2, IsPassageTime (fun i j : Fin 2 => (!![1 / 3, 2 / 3; 1, 0] : Matrix (Fin 2) (Fin 2) ℚ) i j) (· = j)
      fun i => (!![0, 3 / 2; 1, 0] : Matrix (Fin 2) (Fin 2) ℚ) i j) ∧
    ∃ t, mfptAllF binary64 (Arith.rounded double) (roundedInverter binary64) exThird exThirdNx = .ok (some t) := by
  have hpi : piF (Arith.rounded double) exThird exThirdNx.sccs = .ok [exThirdPi] := by
    unfold exThirdPi piF
    rw [if_pos (by decide +kernel)]
    dsimp only
    rw [if_pos (by decide +kernel)]
    rfl
  refine ⟨?_, C170_instance.2.2.1, hpi, ?_, ?_, ?_, ?_⟩
  · have := roundedInverter_stable (fl := binary64) (u := 1 / 2 ^ 53) (by positivity) (by norm_num) binary64_near
    norm_num at this ⊢
    exact this
  · change ((∀ i : Fin 2, 0 ≤ (![3 / 5, 2 / 5] : Fin 2 → ℚ) i) ∧ ∑ i, (![3 / 5, 2 / 5] : Fin 2 → ℚ) i = 1) ∧
      ∀ j : Fin 2, ∑ i, (![3 / 5, 2 / 5] : Fin 2 → ℚ) i *
        (fun i j : Fin 2 => (!![1 / 3, 2 / 3; 1, 0] : Matrix (Fin 2) (Fin 2) ℚ) i j) i j = (![3 / 5, 2 / 5] : Fin 2 → ℚ) j
    decide +kernel
  · decide +kernel
  · change ∀ j : Fin 2, (∀ i : Fin 2, i = j → (fun i j : Fin 2 => (!![0, 3 / 2; 1, 0] : Matrix (Fin 2) (Fin 2) ℚ) i j) i j = 0) ∧
      ∀ i : Fin 2, ¬ i = j → (fun i j : Fin 2 => (!![0, 3 / 2; 1, 0] : Matrix (Fin 2) (Fin 2) ℚ) i j) i j =
        1 + ∑ k, (fun i j : Fin 2 => (!![1 / 3, 2 / 3; 1, 0] : Matrix (Fin 2) (Fin 2) ℚ) i j) i k *
          (fun i j : Fin 2 => (!![0, 3 / 2; 1, 0] : Matrix (Fin 2) (Fin 2) ℚ) i j) k j
    decide +kernel
  · have he : isErgodic exThird exThirdNx = true := by decide +kernel
    have hd : (groupMatrixF binary64 exThird.p exThirdPi : Matrix (Fin 2) (Fin 2) ℚ).det ≠ 0 := by
      rw [Matrix.det_fin_two]
      change (fun i j : Fin 2 => groupMatrixF binary64 exThird.p exThirdPi i j) 0 0 *
        (fun i j : Fin 2 => groupMatrixF binary64 exThird.p exThirdPi i j) 1 1 -
        (fun i j : Fin 2 => groupMatrixF binary64 exThird.p exThirdPi i j) 0 1 *
        (fun i j : Fin 2 => groupMatrixF binary64 exThird.p exThirdPi i j) 1 0 ≠ 0
      decide +kernel
    have hinv : ∃ Z, roundedInverter binary64 exThird.n (groupMatrixF binary64 exThird.p exThirdPi) = some Z :=
      roundedInverter_some binary64 hd
    obtain ⟨Z, hZ⟩ := hinv
    unfold mfptAllF
    rw [if_pos he, hpi, R.ok_bind]
    have hok : ∀ (o : Option (Matrix (Fin exThird.n) (Fin exThird.n) ℚ))
        (f : Matrix (Fin exThird.n) (Fin exThird.n) ℚ → Fin exThird.n → Fin exThird.n → ℚ), o = some Z →
        ∃ t, (orRaise o >>= fun z => pure (some (f z)) : R (Option (Fin exThird.n → Fin exThird.n → ℚ))) = .ok (some t) := by
      rintro o f rfl
      exact ⟨_, rfl⟩
    exact hok _ _ hZ

end Verif
