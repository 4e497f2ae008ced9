import Verif.Model.RoundedTauchen
import Verif.Props.RoundedMeasures
import Verif.Props.Validation

/-!
# The Tauchen approximation in floating point (C190)
-/

namespace Verif

open Finset

variable {K : Type} [Field K] [LinearOrder K] [IsStrictOrderedRing K] {fl : K → K} {e : K}

/-- A rounded number of bounded size. -/
theorem fl_abs (h : IsRounding fl e) {z B : K} (hz : |z| ≤ B) : |fl z - z| ≤ e * B :=
  (h.near z).trans (mul_le_mul_of_nonneg_left hz h.unit_nonneg)

/-- C190, the computed ends of the intervals. -/
theorem C190_ends (h : IsRounding fl e) (he : e ≤ 1 / 10) {x : ℕ → K} {X step rho sigma : K} {i j : ℕ}
    (hi : |x i| ≤ X) (hj : |x j| ≤ X) (hs0 : 0 ≤ step) (hsX : step ≤ X) (hrho : |rho| ≤ 1) (hsig : 0 < sigma) :
    |tauchenHighF fl x step (fl (rho * x i)) sigma j - (x j - fl (rho * x i) + step) / sigma| ≤ 14 * X * e / sigma ∧
    |tauchenLowF fl x step (fl (rho * x i)) sigma j - (x j - fl (rho * x i) - step) / sigma| ≤ 14 * X * e / sigma := by
  have he0 := h.unit_nonneg
  have hX0 : 0 ≤ X := (abs_nonneg _).trans hi
  have r0 : |rho * x i| ≤ X := by
    rw [abs_mul]
    calc |rho| * |x i| ≤ 1 * X := mul_le_mul hrho hi (abs_nonneg _) zero_le_one
      _ = X := one_mul X
  have r1 := abs_le.1 (fl_abs h r0)
  have hr := abs_le.1 r0
  have hXe : e * X ≤ X / 10 := by nlinarith
  have hXe0 : 0 ≤ e * X := mul_nonneg he0 hX0
  generalize fl (rho * x i) = rx at *
  have hx := abs_le.1 hj
  have z0 : |x j - rx| ≤ 3 * X := abs_le.2 ⟨by linarith, by linarith⟩
  have z1 := abs_le.1 (fl_abs h z0)
  have hz := abs_le.1 z0
  have key : ∀ t : K, |t| ≤ X →
      |fl (fl (fl (x j - rx) + t) / sigma) - (x j - rx + t) / sigma| ≤ 14 * X * e / sigma := by
    intro t ht
    have ht' := abs_le.1 ht
    have w0 : |fl (x j - rx) + t| ≤ 5 * X := abs_le.2 ⟨by linarith, by linarith⟩
    have w1 := abs_le.1 (fl_abs h w0)
    have hw := abs_le.1 w0
    have n0 : |fl (fl (x j - rx) + t)| ≤ 6 * X := abs_le.2 ⟨by linarith, by linarith⟩
    have q0 : |fl (fl (x j - rx) + t) / sigma| ≤ 6 * X / sigma := by
      rw [abs_div, abs_of_pos hsig]
      exact div_le_div_of_nonneg_right n0 hsig.le
    have q1 := fl_abs h q0
    have d : |fl (fl (x j - rx) + t) / sigma - (x j - rx + t) / sigma| ≤ 8 * (e * X) / sigma := by
      rw [← sub_div, abs_div, abs_of_pos hsig]
      refine div_le_div_of_nonneg_right (abs_le.2 ⟨by linarith, by linarith⟩) hsig.le
    calc _ = |(fl (fl (fl (x j - rx) + t) / sigma) - fl (fl (x j - rx) + t) / sigma) +
          (fl (fl (x j - rx) + t) / sigma - (x j - rx + t) / sigma)| := by rw [sub_add_sub_cancel]
      _ ≤ e * (6 * X / sigma) + 8 * (e * X) / sigma := (abs_add_le _ _).trans (add_le_add q1 d)
      _ = 14 * X * e / sigma := by ring
  refine ⟨key step (by rw [abs_of_nonneg hs0]; exact hsX), ?_⟩
  have := key (-step) (by rw [abs_neg, abs_of_nonneg hs0]; exact hsX)
  rwa [← sub_eq_add_neg, ← sub_eq_add_neg] at this

/-- C190. **The Tauchen approximation in floating point**: if the nodes are at most `X` in absolute value and equally spaced
up to `ν`, and the computed distribution function is monotone, between zero and one and within `δ` of a function with
Lipschitz constant `L`, then the entries lie between zero and one, and the rows, which are not divided by their sums, sum
to one up to `(n - 1) (e + L (ν + 28 X e) / σ + 2 δ)`. -/
theorem C190_tauchen (h : IsRounding fl e) (he : e ≤ 1 / 10) {cdf Φ : K → K} {L δ : K} (hL : 0 ≤ L)
    (hmono : Monotone cdf) (h01 : ∀ y, 0 ≤ cdf y ∧ cdf y ≤ 1) (hδ : ∀ y, |cdf y - Φ y| ≤ δ)
    (hLip : ∀ y y', |Φ y - Φ y'| ≤ L * |y - y'|) {x : ℕ → K} {X ν step rho sigma : K}
    (m : ℕ)
    (hX : ∀ k ≤ m + 1, |x k| ≤ X) (hν : ∀ k ≤ m, |x (k + 1) - x k - 2 * step| ≤ ν) (hs0 : 14 * X * e ≤ step)
    (hsX : step ≤ X) (hrho : |rho| ≤ 1) (hsig : 0 < sigma) (i : Fin (m + 2)) :
    (∀ j, 0 ≤ tauchenMatrixF fl cdf (m + 2) sigma rho x step i j ∧ tauchenMatrixF fl cdf (m + 2) sigma rho x step i j ≤ 1) ∧
    |∑ j, tauchenMatrixF fl cdf (m + 2) sigma rho x step i j - 1| ≤
      (m + 1) * (e + L * ((ν + 28 * X * e) / sigma) + 2 * δ) := by
  have he0 := h.unit_nonneg
  have hX0 : 0 ≤ X := (abs_nonneg _).trans (hX 0 (Nat.zero_le _))
  have hstep : 0 ≤ step := le_trans (by positivity) hs0
  have ends := fun j (hj : j ≤ m + 1) =>
    C190_ends h he (i := i) (j := j) (hX i (by omega)) (hX j hj) hstep hsX hrho hsig
  obtain ⟨A, hA⟩ : ∃ A : ℕ → K, A = fun j => cdf (tauchenHighF fl x step (fl (rho * x i)) sigma j) := ⟨_, rfl⟩
  obtain ⟨B, hB⟩ : ∃ B : ℕ → K, B = fun j => cdf (tauchenLowF fl x step (fl (rho * x i)) sigma j) := ⟨_, rfl⟩
  have a01 : ∀ j, 0 ≤ A j ∧ A j ≤ 1 := fun j => by rw [hA]; exact h01 _
  have b01 : ∀ j, 0 ≤ B j ∧ B j ≤ 1 := fun j => by rw [hB]; exact h01 _
  have hBA : ∀ j ≤ m + 1, B j ≤ A j := by
    intro j hj
    rw [hA, hB]
    apply hmono
    obtain ⟨e1, e2⟩ := ends j hj
    have e1 := (abs_le.1 e1).1
    have e2 := (abs_le.1 e2).2
    have : (x j - fl (rho * x i) + step) / sigma - (x j - fl (rho * x i) - step) / sigma = 2 * (step / sigma) := by ring
    have : 14 * X * e / sigma ≤ step / sigma := div_le_div_of_nonneg_right hs0 hsig.le
    linarith
  have hstepAB : ∀ j ≤ m, |A j - B (j + 1)| ≤ L * ((ν + 28 * X * e) / sigma) + 2 * δ := by
    intro j hj
    have gap : |tauchenHighF fl x step (fl (rho * x i)) sigma j - tauchenLowF fl x step (fl (rho * x i)) sigma (j + 1)| ≤
        (ν + 28 * X * e) / sigma := by
      have e1 := abs_le.1 (ends j (by omega)).1
      have e2 := abs_le.1 (ends (j + 1) (by omega)).2
      have n : |(x j - fl (rho * x i) + step) / sigma - (x (j + 1) - fl (rho * x i) - step) / sigma| ≤ ν / sigma := by
        rw [← sub_div, abs_div, abs_of_pos hsig]
        refine div_le_div_of_nonneg_right ?_ hsig.le
        rw [abs_sub_comm]
        convert hν j hj using 2
        ring
      have n := abs_le.1 n
      have s : (ν + 28 * X * e) / sigma = ν / sigma + 14 * X * e / sigma + 14 * X * e / sigma := by ring
      rw [s, abs_le]
      constructor <;> linarith
    rw [hA, hB]
    have d1 := abs_le.1 (hδ (tauchenHighF fl x step (fl (rho * x i)) sigma j))
    have d2 := abs_le.1 (hδ (tauchenLowF fl x step (fl (rho * x i)) sigma (j + 1)))
    have d3 := abs_le.1 ((hLip _ _).trans (mul_le_mul_of_nonneg_left gap hL))
    rw [abs_le]
    constructor <;> linarith
  have diff : ∀ y : K, 0 ≤ y → y ≤ 1 → 0 ≤ fl y ∧ fl y ≤ 1 ∧ |fl y - y| ≤ e := by
    intro y y0 y1
    refine ⟨h.nonneg y0, ?_, ?_⟩
    · have := h.mono _ _ y0 y1
      rwa [h.one] at this
    · have := fl_abs h (by rwa [abs_of_nonneg y0] : |y| ≤ 1)
      rwa [mul_one] at this
  have inner := fun j (hj : j ≤ m + 1) => diff (A j - B j) (by linarith [hBA j hj]) (by linarith [(a01 j).2, (b01 j).1])
  have last := diff (1 - B (m + 1)) (by linarith [(b01 (m + 1)).2]) (by linarith [(b01 (m + 1)).1])
  obtain ⟨p, hp⟩ : ∃ p : ℕ → K, p = fun j => if j = 0 then A 0 else if j = m + 1 then fl (1 - B (m + 1)) else
    fl (A j - B j) := ⟨_, rfl⟩
  have hpe : ∀ j : Fin (m + 2), tauchenMatrixF fl cdf (m + 2) sigma rho x step i j = p j := by
    intro j; rw [hp, hA, hB]; rfl
  constructor
  · intro j
    rw [hpe, hp]
    simp only
    split_ifs
    · exact a01 0
    · exact ⟨last.1, last.2.1⟩
    · exact ⟨(inner j (by omega)).1, (inner j (by omega)).2.1⟩
  · have hsum : ∑ j, tauchenMatrixF fl cdf (m + 2) sigma rho x step i j =
        ∑ j ∈ range m, fl (A (j + 1) - B (j + 1)) + A 0 + fl (1 - B (m + 1)) := by
      rw [sum_congr rfl fun j _ => hpe j, Fin.sum_univ_eq_sum_range (fun j => p j), sum_range_succ, sum_range_succ']
      have p0 : p 0 = A 0 := by rw [hp]; simp
      have p1 : p (m + 1) = fl (1 - B (m + 1)) := by rw [hp]; simp
      rw [p0, p1]
      congr 2
      refine sum_congr rfl fun j hj => ?_
      have := mem_range.1 hj
      rw [hp]
      simp only
      rw [if_neg (by omega), if_neg (by omega)]
    have tele : ∑ j ∈ range m, (A (j + 1) - B (j + 1)) + A 0 - B (m + 1) = ∑ j ∈ range (m + 1), (A j - B (j + 1)) := by
      rw [sum_sub_distrib, sum_sub_distrib, sum_range_succ' A, sum_range_succ (fun j => B (j + 1))]
      ring
    have t1 : |∑ j ∈ range (m + 1), (A j - B (j + 1))| ≤ (m + 1) * (L * ((ν + 28 * X * e) / sigma) + 2 * δ) := by
      refine (abs_sum_le_sum_abs _ _).trans ((sum_le_sum fun j hj => hstepAB j (by have := mem_range.1 hj; omega)).trans ?_)
      rw [sum_const, card_range, nsmul_eq_mul]
      push_cast
      exact le_rfl
    have t2 : |∑ j ∈ range m, (fl (A (j + 1) - B (j + 1)) - (A (j + 1) - B (j + 1)))| ≤ m * e := by
      refine (abs_sum_le_sum_abs _ _).trans ((sum_le_sum fun j hj =>
        (inner (j + 1) (by have := mem_range.1 hj; omega)).2.2).trans ?_)
      rw [sum_const, card_range, nsmul_eq_mul]
    rw [sum_sub_distrib] at t2
    have t1 := abs_le.1 t1
    have t2 := abs_le.1 t2
    have t3 := abs_le.1 last.2.2
    rw [← tele] at t1
    rw [hsum, abs_le]
    constructor <;> linarith

/-- C190: the matrix passes the checks of the constructor if the bound is below the tolerance. -/
theorem C190_accepted (h : IsRounding fl e) (he : e ≤ 1 / 10) {cdf Φ : K → K} {L δ : K} (hL : 0 ≤ L)
    (hmono : Monotone cdf) (h01 : ∀ y, 0 ≤ cdf y ∧ cdf y ≤ 1) (hδ : ∀ y, |cdf y - Φ y| ≤ δ)
    (hLip : ∀ y y', |Φ y - Φ y'| ≤ L * |y - y'|) {x : ℕ → K} {X ν step rho sigma : K}
    (m : ℕ)
    (hX : ∀ k ≤ m + 1, |x k| ≤ X) (hν : ∀ k ≤ m, |x (k + 1) - x k - 2 * step| ≤ ν) (hs0 : 14 * X * e ≤ step)
    (hsX : step ≤ X) (hrho : |rho| ≤ 1) (hsig : 0 < sigma)
    (hb : (m + 1) * (e + L * ((ν + 28 * X * e) / sigma) + 2 * δ) ≤ 1 / 10 ^ 5) :
    AcceptedMatrix (tauchenMatrixF fl cdf (m + 2) sigma rho x step) := by
  have k := C190_tauchen h he hL hmono h01 hδ hLip m hX hν hs0 hsX hrho hsig
  exact ⟨by omega, fun i => (k i).1, fun i => (k i).2.trans (hb.trans (by norm_num))⟩

/-- A line cut off at zero and one, a distribution function for the instance below; not code of the repository. -/
def clampLine (y : ℚ) : ℚ := max (min (y + 1 / 2) 1) 0

theorem clampLine_lipschitz (y y' : ℚ) : |clampLine y - clampLine y'| ≤ 1 * |y - y'| := by
  rw [one_mul]
  refine (abs_max_sub_max_le_abs _ _ _).trans ((abs_min_sub_min_le_max _ _ _ _).trans ?_)
  rw [sub_self, abs_zero, add_sub_add_right_eq_sub]
  exact max_le le_rfl (abs_nonneg _)

/-- C190 is not vacuous: the nodes -1, 0, 1 satisfy the assumptions with doubles. -/
theorem C190_instance :
    AcceptedMatrix (tauchenMatrixF binary64 clampLine 3 1 (1 / 3) (fun k => (k : ℚ) - 1) (1 / 2)) := by
  refine C190_accepted (Φ := clampLine) (L := 1) (δ := 0) (X := 1) (ν := 0) binary64_rounding (by norm_num)
    zero_le_one ?_ ?_ ?_ clampLine_lipschitz 1 ?_ ?_ (by norm_num) (by norm_num) (by norm_num [abs_le]) one_pos (by norm_num)
  · intro a b hab
    exact max_le_max (min_le_min (by linarith) le_rfl) le_rfl
  · exact fun y => ⟨le_max_right _ _, max_le (min_le_right _ _) zero_le_one⟩
  · intro y; simp
  · intro k hk
    have h2 : (k : ℚ) ≤ 2 := by exact_mod_cast hk
    have h0 : (0 : ℚ) ≤ k := Nat.cast_nonneg k
    exact abs_le.2 ⟨by linarith, by linarith⟩
  · intro k _
    push_cast
    exact le_of_eq (abs_eq_zero.2 (by ring))

omit [LinearOrder K] [IsStrictOrderedRing K] in
/-- C190: without rounding, with the nodes of `tauchenNode`, the matrix is the one of the exact model. -/
theorem C190_exact (cdf : K → K) (size : ℕ) (sigma rho xmax : K) :
    tauchenMatrixF id cdf size sigma rho (tauchenNode size xmax) (1 / 2 * ((xmax - -xmax) / ((size - 1 : ℕ) : K))) =
      tauchenMatrix cdf size sigma rho xmax := rfl

end Verif
