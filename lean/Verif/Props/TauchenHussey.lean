import Verif.Model.Approximation
import Verif.Spec.Approximation
import Verif.Spec.Valid
import Verif.Lemmas.Generators
import Verif.Props.Validation
import Mathlib.Tactic.LinearCombination
import Mathlib.Tactic.IntervalCases
import Mathlib.Analysis.Complex.ExponentialBounds

/-!
# The Tauchen-Hussey approximation (C106)
-/

namespace Verif

open Polynomial in
theorem derivative_hermite (n : ℕ) :
    derivative (Polynomial.hermite (n + 1)) = (n + 1 : ℕ) * Polynomial.hermite n := by
  induction n with
  | zero => simp [Polynomial.hermite_zero]
  | succ n ih =>
    rw [hermite_succ (n + 1), derivative_sub, derivative_mul, derivative_X, ih]
    have h : derivative (((n + 1 : ℕ) : ℤ[X]) * Polynomial.hermite n) =
        ((n + 1 : ℕ) : ℤ[X]) * derivative (Polynomial.hermite n) := by
      rw [derivative_mul, derivative_natCast, zero_mul, zero_add]
    rw [h, hermite_succ n]
    push_cast
    ring

theorem hermiteDerivative_succ (n : ℕ) (x : ℝ) :
    hermiteDerivative (n + 1) x = Real.sqrt 2 * (n + 1 : ℕ) * hermiteValue n x := by
  unfold hermiteDerivative hermiteValue
  rw [derivative_hermite]
  simp [mul_assoc]

theorem hermiteValue_succ (n : ℕ) (x : ℝ) : hermiteValue (n + 2) x =
    Real.sqrt 2 * x * hermiteValue (n + 1) x - (n + 1 : ℕ) * hermiteValue n x := by
  have h := hermiteDerivative_succ n x
  unfold hermiteDerivative at h
  rw [mul_assoc] at h
  have h2 := mul_left_cancel₀ (by positivity : Real.sqrt 2 ≠ 0) h
  unfold hermiteValue at h2 ⊢
  rw [Polynomial.hermite_succ (n + 1), map_sub, map_mul, Polynomial.aeval_X, h2]

/-- The recurrence of the source computes the Hermite polynomials, scaled. -/
theorem hermite_eq (z : ℝ) (n : ℕ) : (hermite z n).1 =
    hermiteValue n z / (Real.pi ^ (1 / 4 : ℝ) * Real.sqrt n.factorial) := by
  induction n using Nat.strong_induction_on with
  | _ n ih =>
    match n with
    | 0 => simp [hermite, hermiteValue]
    | 1 =>
      simp [hermite, hermiteValue]
      ring
    | n + 2 =>
      have h1 := ih (n + 1) (by omega)
      have h0 := ih n (by omega)
      have e : (hermite z (n + 1)).2 = (hermite z n).1 := rfl
      rw [hermite, e, h1, h0, hermiteValue_succ]
      have hp : (0 : ℝ) < Real.pi ^ (1 / 4 : ℝ) := Real.rpow_pos_of_pos Real.pi_pos _
      have hf : (0 : ℝ) < Real.sqrt n.factorial := Real.sqrt_pos.2 (by positivity)
      have hn1 : (0 : ℝ) < Real.sqrt (n + 1 : ℕ) := Real.sqrt_pos.2 (by positivity)
      have hn2 : (0 : ℝ) < Real.sqrt (n + 2 : ℕ) := Real.sqrt_pos.2 (by positivity)
      rw [Nat.factorial_succ (n + 1), Nat.factorial_succ n]
      push_cast [Nat.cast_mul]
      push_cast at hn1 hn2
      have e1 : ((n : ℝ) + 1 + 1) = n + 2 := by ring
      have e2 : ((n : ℝ) + 2 - 1) = n + 1 := by ring
      rw [e1, e2, Real.sqrt_mul (by positivity), Real.sqrt_mul (by positivity),
        Real.sqrt_div (by positivity), Real.sqrt_div (by positivity)]
      have hsq : Real.sqrt ((n : ℝ) + 1) * Real.sqrt ((n : ℝ) + 1) = n + 1 :=
        Real.mul_self_sqrt (by positivity)
      field_simp
      rw [pow_two, hsq, Real.sqrt_mul (by positivity)]
      ring

/-- `pp` is the derivative, scaled like the polynomial. -/
theorem hermiteSlope_eq {n : ℕ} (hn : 0 < n) (z : ℝ) : hermiteSlope n z =
    hermiteDerivative n z / (Real.pi ^ (1 / 4 : ℝ) * Real.sqrt n.factorial) := by
  obtain ⟨m, rfl⟩ : ∃ m, n = m + 1 := ⟨n - 1, by omega⟩
  have e : (hermite z (m + 1)).2 = (hermite z m).1 := rfl
  unfold hermiteSlope
  rw [e, hermite_eq, hermiteDerivative_succ, Nat.factorial_succ]
  have hp : (0 : ℝ) < Real.pi ^ (1 / 4 : ℝ) := Real.rpow_pos_of_pos Real.pi_pos _
  have hf : (0 : ℝ) < Real.sqrt m.factorial := Real.sqrt_pos.2 (by positivity)
  have hn1 : (0 : ℝ) < Real.sqrt ((m : ℝ) + 1) := Real.sqrt_pos.2 (by positivity)
  push_cast [Nat.cast_mul]
  rw [Real.sqrt_mul (by positivity), Real.sqrt_mul (by positivity)]
  have hsq : Real.sqrt ((m : ℝ) + 1) * Real.sqrt ((m : ℝ) + 1) = m + 1 :=
    Real.mul_self_sqrt (by positivity)
  field_simp
  rw [pow_two, hsq]

theorem hermite_quotient {n : ℕ} (hn : 0 < n) (z : ℝ) :
    (hermite z n).1 / hermiteSlope n z = hermiteValue n z / hermiteDerivative n z := by
  rw [hermite_eq, hermiteSlope_eq hn]
  have hp : (0 : ℝ) < Real.pi ^ (1 / 4 : ℝ) := Real.rpow_pos_of_pos Real.pi_pos _
  have hf : (0 : ℝ) < Real.sqrt n.factorial := Real.sqrt_pos.2 (by positivity)
  rw [div_div_div_cancel_right₀ (by positivity)]

/-- What the loop returns. -/
theorem newtonLoop_ok {n : ℕ} {fuel : ℕ} {z : ℝ} {r : ℝ × ℝ} (h : newtonLoop n fuel z = some r) :
    ∃ y, hermiteSlope n y ≠ 0 ∧ |(hermite y n).1 / hermiteSlope n y| < 1 / 10 ^ 14 ∧
      r.1 = y - (hermite y n).1 / hermiteSlope n y ∧ r.2 = hermiteSlope n y := by
  induction fuel generalizing z with
  | zero => simp [newtonLoop] at h
  | succ k ih =>
    unfold newtonLoop at h
    simp only at h
    split at h
    · cases h
    · rename_i hpp
      split at h
      · rename_i hlt
        injection h with h
        subst h
        refine ⟨z, hpp, ?_, rfl, rfl⟩
        rwa [sub_sub_cancel_left, abs_neg] at hlt
      · exact ih h

/-- What is stored by each pass. -/
theorem nodePass_ok {n i : ℕ} {q q' : Nodes} (h : nodePass n i q = some q') :
    ∃ y, hermiteSlope n y ≠ 0 ∧ |(hermite y n).1 / hermiteSlope n y| < 1 / 10 ^ 14 ∧
      q' = q.store n i (y - (hermite y n).1 / hermiteSlope n y) (hermiteSlope n y) := by
  unfold nodePass at h
  rw [Option.bind_eq_some_iff] at h
  obtain ⟨z, -, h⟩ := h
  rw [Option.map_eq_some_iff] at h
  obtain ⟨r, hr, rfl⟩ := h
  obtain ⟨y, h1, h2, h3, h4⟩ := newtonLoop_ok hr
  exact ⟨y, h1, h2, by rw [h3, h4]⟩

/-- The nodes and weights after `i` passes. -/
theorem nodePasses_ok {n : ℕ} (hn : 0 < n) {i : ℕ} (hi : i ≤ (n + 1) / 2) {q : Nodes}
    (h : nodePasses n i = some q) :
    (∀ j, j < n → j < i ∨ n - 1 - j < i → NearNode n (1 / 10 ^ 14) (q.nodes j) (q.weights j)) ∧
    (∀ j, j < n → q.weights (n - 1 - j) = q.weights j) ∧
    ∀ j, j < n → j ≠ n - 1 - j → q.nodes (n - 1 - j) = -q.nodes j := by
  induction i generalizing q with
  | zero =>
    simp only [nodePasses, Option.some.injEq] at h
    subst h
    refine ⟨fun j _ hj => by omega, fun _ _ => rfl, fun _ _ _ => by simp⟩
  | succ i ih =>
    unfold nodePasses at h
    rw [Option.bind_eq_some_iff] at h
    obtain ⟨q₀, h0, h⟩ := h
    obtain ⟨ih1, ih2, ih3⟩ := ih (by omega) h0
    obtain ⟨y, h1, h2, rfl⟩ := nodePass_ok h
    have hp : (0 : ℝ) < Real.pi ^ (1 / 4 : ℝ) := Real.rpow_pos_of_pos Real.pi_pos _
    have hf : (0 : ℝ) < Real.sqrt n.factorial := Real.sqrt_pos.2 (by positivity)
    have hd : hermiteDerivative n y ≠ 0 := by
      intro h
      rw [hermiteSlope_eq hn, h, zero_div] at h1
      exact h1 rfl
    have hw : 2 / hermiteSlope n y ^ 2 =
        2 * Real.sqrt Real.pi * n.factorial / hermiteDerivative n y ^ 2 := by
      have hpi : (Real.pi ^ (1 / 4 : ℝ)) ^ 2 = Real.sqrt Real.pi := by
        rw [← Real.rpow_natCast, ← Real.rpow_mul Real.pi_pos.le, Real.sqrt_eq_rpow]
        norm_num
      rw [hermiteSlope_eq hn, div_pow, mul_pow, Real.sq_sqrt (by positivity), hpi]
      field_simp
    have hnode : ∀ x, |x| = |y - (hermite y n).1 / hermiteSlope n y| →
        NearNode n (1 / 10 ^ 14) x (2 / hermiteSlope n y ^ 2) := by
      intro x hx
      rw [hermite_quotient hn] at hx h2
      exact ⟨y, hd, h2, hx, hw⟩
    refine ⟨fun j hj hji => ?_, fun j hj => ?_, fun j hj hne => ?_⟩
    · unfold Nodes.store
      by_cases hj1 : j = n - 1 - i
      · simp only [if_pos hj1]
        exact hnode _ rfl
      · by_cases hj2 : j = i
        · simp only [if_neg hj1, if_pos hj2]
          exact hnode _ (abs_neg _)
        · simp only [if_neg hj1, if_neg hj2]
          exact ih1 j hj (by omega)
    · unfold Nodes.store
      by_cases hj1 : j = n - 1 - i
      · have e : n - 1 - j = i := by omega
        by_cases hj3 : i = n - 1 - i
        · simp only [e, if_pos hj1, if_pos hj3]
        · simp only [e, if_pos hj1, if_neg hj3, if_true]
      · by_cases hj2 : j = i
        · subst hj2
          simp only [if_neg hj1, if_true]
        · simp only [if_neg hj1, if_neg hj2, if_neg (by omega : ¬ n - 1 - j = n - 1 - i),
            if_neg (by omega : ¬ n - 1 - j = i)]
          exact ih2 j hj
    · unfold Nodes.store
      by_cases hj1 : j = n - 1 - i
      · have e : n - 1 - j = i := by omega
        have hj3 : ¬ i = n - 1 - i := by omega
        simp only [e, if_pos hj1, if_neg hj3, if_true]
      · by_cases hj2 : j = i
        · subst hj2
          simp only [if_neg hj1, if_true, neg_neg]
        · simp only [if_neg hj1, if_neg hj2, if_neg (by omega : ¬ n - 1 - j = n - 1 - i),
            if_neg (by omega : ¬ n - 1 - j = i)]
          exact ih3 j hj hne

/-! ## The matrix -/

theorem normPdf_eq (x m : ℝ) {s : ℝ} (hs : 0 < s) : normPdf x m s = normalDensity m s x := by
  unfold normPdf normalDensity
  rw [ProbabilityTheory.gaussianPDFReal_def]
  simp only [NNReal.coe_mk]
  have hq : Real.sqrt (2 * Real.pi * s ^ 2) = s * Real.sqrt (2 * Real.pi) := by
    rw [Real.sqrt_mul (by positivity), Real.sqrt_sq hs.le, mul_comm]
  rw [hq, div_eq_inv_mul]
  congr 1
  rw [div_pow]
  field_simp

theorem normPdf_pos (x m : ℝ) {s : ℝ} (hs : 0 < s) : 0 < normPdf x m s := by
  unfold normPdf
  have := Real.pi_pos
  positivity

theorem NearNode.weight_pos {n : ℕ} {tol node weight : ℝ} (h : NearNode n tol node weight) :
    0 < weight := by
  obtain ⟨y, h1, -, -, rfl⟩ := h
  have := Real.sqrt_pos.2 Real.pi_pos
  have := pow_pos (abs_pos.2 h1) 2
  rw [sq_abs] at this
  positivity

theorem husseyEntry_pos {q : Nodes} {alpha sigma rho k : ℝ} (hs : 0 < sigma) (hk : 0 < k) {i j : ℕ}
    (hw : 0 < q.weights j) : 0 < husseyEntry q alpha sigma rho k i j := by
  unfold husseyEntry
  have := Real.sqrt_pos.2 Real.pi_pos
  have h1 := normPdf_pos (husseyNode q alpha k j) ((1 - rho) * alpha + rho * husseyNode q alpha k i) hs
  have h2 := normPdf_pos (husseyNode q alpha k j) alpha hk
  positivity

theorem husseyNode_eq (q : Nodes) (alpha : ℝ) {k : ℝ} (hk : 0 < k) (i : ℕ) :
    husseyNode q alpha k i = alpha + 2 * k * q.nodes i := by
  unfold husseyNode
  have h2 : Real.sqrt 2 * Real.sqrt 2 = 2 := Real.mul_self_sqrt (by norm_num)
  rw [Real.sqrt_mul (by norm_num), Real.sqrt_sq hk.le]
  linear_combination q.nodes i * k * h2

theorem husseyScale_ok {k : PyVal ℝ} {sigma rho kk : ℝ} (hs : 0 < sigma) (hr : -1 ≤ rho)
    (hr' : rho ≤ 1) (h : husseyScale k sigma rho = .ok (some kk)) : 0 < kk ∧
      ((k = .none ∧ 1 - rho ^ 2 ≠ 0 ∧ kk = (1 / 2 + rho / 4) * sigma +
        (1 - (1 / 2 + rho / 4)) * (sigma / Real.sqrt (1 - rho ^ 2))) ∨ k = .float (.fin kk)) := by
  unfold husseyScale at h
  split at h
  · rw [R.pure_ok] at h
    unfold husseyDefault at h
    split at h
    · cases h
    · rename_i hne
      injection h with h
      have hr0 : 0 < 1 - rho ^ 2 := lt_of_le_of_ne (by nlinarith) (Ne.symm hne)
      refine ⟨?_, Or.inl ⟨rfl, hne, h.symm⟩⟩
      rw [← h]
      have h1 : 0 < sigma / Real.sqrt (1 - rho ^ 2) := div_pos hs (Real.sqrt_pos.2 hr0)
      have h2 : 0 < 1 / 2 + rho / 4 := by linarith
      have h3 : 0 < 1 - (1 / 2 + rho / 4) := by linarith
      positivity
  · obtain ⟨x, hx, h⟩ := (R.bind_ok _ _ _).1 h
    rw [R.pure_ok] at h
    injection h with h
    subst h
    rw [C03_float_limits] at hx
    exact ⟨hx.2.1 0 rfl, Or.inr hx.1⟩

/-- Reflection of the nodes at the mean. -/
theorem husseyEntry_mirror {q : Nodes} {alpha sigma rho k : ℝ} (hk : 0 < k) {i j i' j' : ℕ}
    (hi : q.nodes i' = -q.nodes i) (hj : q.nodes j' = -q.nodes j)
    (hw : q.weights j' = q.weights j) :
    husseyEntry q alpha sigma rho k i' j' = husseyEntry q alpha sigma rho k i j := by
  unfold husseyEntry normPdf
  simp only [husseyNode_eq q alpha hk, hi, hj, hw]
  congr 3
  · congr 2
    ring
  · congr 2
    ring

/-- C106. For every size, mean, deviation, correlation and `k` for which the quadrature converges and no
`nan` appears, the result is a valid chain with positive entries. The nodes and weights are those of
Gauss-Hermite quadrature up to the tolerance of Newton's method, the entry `(i, j)` is proportional to
the weight `j` times the density of the process at the node `j` after the node `i`, divided by the
density with mean `a` and deviation `k`. For an even size the chain is symmetric under reflection. -/
theorem C106_tauchen_hussey_partial {size alpha sigma rho states k : PyVal ℝ} {c : MC ℝ}
    (h : approximationTauchenHussey size alpha sigma rho states k = .ok (some c)) :
    c.Valid ∧ size = .int c.n ∧ (∀ i j, 0 < c.p i j) ∧
    ∃ (a s r kk : ℝ) (z w x : ℕ → ℝ), alpha = .float (.fin a) ∧ sigma = .float (.fin s) ∧
      rho = .float (.fin r) ∧ 0 < s ∧ 0 < kk ∧
      ((k = .none ∧ 1 - r ^ 2 ≠ 0 ∧ kk = (1 / 2 + r / 4) * s +
        (1 - (1 / 2 + r / 4)) * (s / Real.sqrt (1 - r ^ 2))) ∨ k = .float (.fin kk)) ∧
      (∀ j, j < c.n → NearNode c.n (1 / 10 ^ 14) (z j) (w j)) ∧
      (∀ j, j < c.n → w (c.n - 1 - j) = w j) ∧
      (∀ j, j < c.n → j ≠ c.n - 1 - j → z (c.n - 1 - j) = -z j) ∧
      (∀ j, x j = a + 2 * kk * z j) ∧
      (∀ i j : Fin c.n, c.p i j =
        w j * normalDensity ((1 - r) * a + r * x i) s (x j) / normalDensity a kk (x j) /
          ∑ l : Fin c.n,
            w l * normalDensity ((1 - r) * a + r * x i) s (x l) / normalDensity a kk (x l)) ∧
      (Even c.n → ∀ i j, c.p i.rev j.rev = c.p i j) := by
  unfold approximationTauchenHussey at h
  rw [R.bind_ok] at h
  obtain ⟨n, hn, h⟩ := h
  obtain ⟨rfl, hn⟩ := validateInteger_ge hn
  rw [R.bind_ok] at h
  obtain ⟨a, ha, h⟩ := h
  rw [C03_float_limits] at ha
  rw [R.bind_ok] at h
  obtain ⟨s, hs, h⟩ := h
  rw [C03_float_limits] at hs
  have hs0 : 0 < s := hs.2.1 0 rfl
  rw [R.bind_ok] at h
  obtain ⟨r, hr, h⟩ := h
  obtain ⟨rfl, hr1, hr2⟩ := validateFloat_closed hr
  rw [R.bind_ok] at h
  obtain ⟨l, hl, h⟩ := h
  rw [R.bind_ok] at h
  obtain ⟨ko, hk, h⟩ := h
  rw [R.bind_ok] at h
  obtain ⟨q, hq, h⟩ := h
  rw [R.pure_ok, Option.map_eq_some_iff] at h
  obtain ⟨kk, rfl, rfl⟩ := h
  have hq' : hermiteNodes n.toNat = some q := by
    cases hh : hermiteNodes n.toNat with
    | none => rw [hh] at hq; cases hq
    | some x => rw [hh] at hq; injection hq with hq; rw [hq]
  have hn2 : 2 ≤ n.toNat := by omega
  obtain ⟨hk0, hkk⟩ := husseyScale_ok hs0 hr1 hr2 hk
  obtain ⟨h1, h2, h3⟩ := nodePasses_ok (by omega) le_rfl hq'
  have h1' : ∀ j, j < n.toNat → NearNode n.toNat (1 / 10 ^ 14) (q.nodes j) (q.weights j) :=
    fun j hj => h1 j hj (by omega)
  have hpos : ∀ i j : Fin n.toNat, 0 < husseyEntry q a s r kk i j :=
    fun i j => husseyEntry_pos hs0 hk0 (h1' j j.isLt).weight_pos
  have hsum : ∀ i : Fin n.toNat, 0 < ∑ l : Fin n.toNat, husseyEntry q a s r kk i l := fun i =>
    Finset.sum_pos (fun l _ => hpos i l) ⟨⟨0, by omega⟩, Finset.mem_univ _⟩
  refine ⟨⟨hn2, ⟨fun i j => (div_pos (hpos i j) (hsum i)).le, fun i => ?_⟩,
    labelsOrDefault_sound hl⟩, by simp; omega, fun i j => div_pos (hpos i j) (hsum i), a, s, r, kk,
    q.nodes, q.weights, husseyNode q a kk, ha.1, hs.1, rfl, hs0, hk0, hkk, h1', h2, h3,
    husseyNode_eq q a hk0, fun i j => ?_, fun he i j => ?_⟩
  · refine (Finset.sum_div _ _ _).symm.trans (div_self (hsum i).ne')
  · change husseyEntry q a s r kk i j / ∑ l : Fin n.toNat, husseyEntry q a s r kk i l = _
    have e : ∀ j : Fin n.toNat, husseyEntry q a s r kk i j = 1 / Real.sqrt Real.pi ^ 2 *
        (q.weights j * normalDensity ((1 - r) * a + r * husseyNode q a kk i) s (husseyNode q a kk j) /
          normalDensity a kk (husseyNode q a kk j)) := by
      intro j
      unfold husseyEntry
      rw [normPdf_eq _ _ hs0, normPdf_eq _ _ hk0]
      ring
    rw [e, Finset.sum_congr rfl fun l _ => e l, ← Finset.mul_sum]
    have := Real.sqrt_pos.2 Real.pi_pos
    exact mul_div_mul_left _ _ (by positivity)
  · have hne : ∀ i : Fin n.toNat, (i : ℕ) ≠ n.toNat - 1 - i := by
      obtain ⟨m, hm⟩ := he
      change n.toNat = m + m at hm
      intro i
      have := i.isLt
      omega
    have hrev : ∀ i : Fin n.toNat, (i.rev : ℕ) = n.toNat - 1 - i := by
      intro i; rw [Fin.val_rev]; omega
    have e : ∀ i j : Fin n.toNat, husseyEntry q a s r kk i.rev j.rev =
        husseyEntry q a s r kk i j := by
      intro i j
      refine husseyEntry_mirror hk0 ?_ ?_ ?_
      · rw [hrev]; exact h3 i i.isLt (hne i)
      · rw [hrev]; exact h3 j j.isLt (hne j)
      · rw [hrev]; exact h2 j j.isLt
    change husseyEntry q a s r kk i.rev j.rev /
      ∑ l : Fin n.toNat, husseyEntry q a s r kk i.rev l =
      husseyEntry q a s r kk i j / ∑ l : Fin n.toNat, husseyEntry q a s r kk i l
    rw [e]
    congr 1
    rw [← Equiv.sum_comp Fin.revPerm]
    exact Finset.sum_congr rfl fun l _ => e i l

/-! ## Two states -/

theorem hermiteValue_two (x : ℝ) : hermiteValue 2 x = 2 * x ^ 2 - 1 := by
  have h2 : Real.sqrt 2 * Real.sqrt 2 = 2 := Real.mul_self_sqrt (by norm_num)
  rw [hermiteValue_succ 0]
  simp only [hermiteValue, Polynomial.hermite_one, Polynomial.hermite_zero, Polynomial.aeval_X,
    map_one, Nat.cast_one, zero_add]
  linear_combination x ^ 2 * h2

theorem hermiteDerivative_two (x : ℝ) : hermiteDerivative 2 x = 4 * x := by
  have h2 : Real.sqrt 2 * Real.sqrt 2 = 2 := Real.mul_self_sqrt (by norm_num)
  rw [hermiteDerivative_succ 1]
  simp only [hermiteValue, Polynomial.hermite_one, Polynomial.aeval_X]
  push_cast
  linear_combination 2 * x * h2

theorem hermiteSlope_two {x : ℝ} (hx : 0 < x) : hermiteSlope 2 x ≠ 0 := by
  rw [hermiteSlope_eq (by norm_num), hermiteDerivative_two]
  have hp : (0 : ℝ) < Real.pi ^ (1 / 4 : ℝ) := Real.rpow_pos_of_pos Real.pi_pos _
  have hf : (0 : ℝ) < Real.sqrt (Nat.factorial 2) := Real.sqrt_pos.2 (by positivity)
  positivity

theorem newton_two {x : ℝ} (hx : 0 < x) :
    x - (hermite x 2).1 / hermiteSlope 2 x = x / 2 + 1 / (4 * x) := by
  rw [hermite_quotient (by norm_num), hermiteValue_two, hermiteDerivative_two]
  field_simp
  ring

theorem newton_two_ge {x : ℝ} (hx : 0 < x) : 1 ≤ 2 * (x / 2 + 1 / (4 * x)) ^ 2 := by
  have h : 2 * (x / 2 + 1 / (4 * x)) ^ 2 - 1 = 1 / 2 * (x - 1 / (2 * x)) ^ 2 := by
    field_simp
    ring
  have := sq_nonneg (x - 1 / (2 * x))
  linarith

/-- Newton's method for two nodes halves the step at least. -/
theorem newtonLoop_two (k : ℕ) {x : ℝ} (hx : 0 < x) (h1 : 1 ≤ 2 * x ^ 2)
    (hd : x / 2 - 1 / (4 * x) < 2 ^ k / 10 ^ 14) :
    ∃ r, newtonLoop 2 (k + 1) x = some r ∧ 0 < r.1 ∧ 1 ≤ 2 * r.1 ^ 2 := by
  induction k generalizing x with
  | zero =>
    refine ⟨(x / 2 + 1 / (4 * x), hermiteSlope 2 x), ?_, ?_, newton_two_ge hx⟩
    · unfold newtonLoop
      simp only
      rw [if_neg (hermiteSlope_two hx), newton_two hx, if_pos]
      rw [abs_lt]
      have : 1 / (4 * x) ≤ x / 2 := by
        rw [div_le_div_iff₀ (by positivity) (by norm_num)]
        nlinarith
      constructor <;> linarith
    · positivity
  | succ k ih =>
    unfold newtonLoop
    simp only
    rw [if_neg (hermiteSlope_two hx), newton_two hx]
    split
    · exact ⟨_, rfl, by positivity, newton_two_ge hx⟩
    · refine ih (by positivity) (newton_two_ge hx) ?_
      have hxle : 1 / (4 * x) ≤ x / 2 := by
        rw [div_le_div_iff₀ (by positivity) (by norm_num)]
        nlinarith
      have h0 : (0 : ℝ) < 1 / (4 * x) := by positivity
      obtain ⟨y, hy⟩ : ∃ y, y = x / 2 + 1 / (4 * x) := ⟨_, rfl⟩
      have hy0 : 0 < y := by rw [hy]; positivity
      obtain ⟨d, hdd⟩ : ∃ d, d = x / 2 - 1 / (4 * x) := ⟨_, rfl⟩
      have hd0 : 0 ≤ d := by linarith
      have e : y / 2 - 1 / (4 * y) = d ^ 2 / (2 * y) := by
        have hxy : y ^ 2 = d ^ 2 + 1 / 2 := by
          rw [hy, hdd]; field_simp; ring
        field_simp
        linear_combination 4 * hxy
      rw [← hy, e]
      have h2 : d ^ 2 / (2 * y) ≤ d / 2 := by
        rw [div_le_div_iff₀ (by positivity) (by norm_num)]
        have : d ≤ y := by linarith
        nlinarith
      have h3 : d < 2 ^ (k + 1) / 10 ^ 14 := by rw [hdd]; exact hd
      have h4 : (2 : ℝ) ^ (k + 1) / 10 ^ 14 = 2 * (2 ^ k / 10 ^ 14) := by rw [pow_succ]; ring
      linarith

theorem hermiteGuess_two : ∃ z, hermiteGuess 2 0 0 (fun _ => 0) = some z ∧ 1 / 3 ≤ z ∧ z ≤ 3 := by
  refine ⟨_, rfl, ?_, ?_⟩
  · have h1 : (2 * ((2 : ℕ) : ℝ) + 1 : ℝ) ^ (-16393 / 100000 : ℝ) ≤ 1 :=
      Real.rpow_le_one_of_one_le_of_nonpos (by norm_num) (by norm_num)
    have h2 : (22 / 10 : ℝ) ≤ Real.sqrt (2 * ((2 : ℕ) : ℝ) + 1) := by
      apply Real.le_sqrt_of_sq_le; norm_num
    linarith
  · have h1 : 0 ≤ (2 * ((2 : ℕ) : ℝ) + 1 : ℝ) ^ (-16393 / 100000 : ℝ) :=
      Real.rpow_nonneg (by norm_num) _
    have h2 : Real.sqrt (2 * ((2 : ℕ) : ℝ) + 1) ≤ 3 := by
      rw [Real.sqrt_le_left (by norm_num)]; norm_num
    exact (sub_le_self _ (mul_nonneg (by norm_num) h1)).trans h2

/-- The quadrature converges for two nodes; the nodes are at least `1 / √2`. -/
theorem hermiteNodes_two : ∃ (z w : ℝ) (q : Nodes), hermiteNodes 2 = some q ∧ 0 < z ∧
    1 ≤ 2 * z ^ 2 ∧ 0 < w ∧ q.nodes 0 = -z ∧ q.nodes 1 = z ∧ q.weights 0 = w ∧ q.weights 1 = w := by
  obtain ⟨x, hx, hx1, hx2⟩ := hermiteGuess_two
  have hx0 : 0 < x := by linarith
  have hl : ∃ r, newtonLoop 2 99 x = some r ∧ 0 < r.1 ∧ 1 ≤ 2 * r.1 ^ 2 := by
    unfold newtonLoop
    simp only
    rw [if_neg (hermiteSlope_two hx0), newton_two hx0]
    split
    · exact ⟨_, rfl, by positivity, newton_two_ge hx0⟩
    · refine newtonLoop_two 97 (by positivity) (newton_two_ge hx0) ?_
      have h1 : 1 / (4 * x) ≤ 1 := by rw [div_le_one (by positivity)]; linarith
      have h2 : (0 : ℝ) < 1 / (4 * (x / 2 + 1 / (4 * x))) := by positivity
      have h3 : (10 : ℝ) ≤ 2 ^ 97 / 10 ^ 14 := by norm_num
      linarith
  obtain ⟨r, hr, hr0, hr1⟩ := hl
  obtain ⟨y, hy, -, -, hp⟩ := newtonLoop_ok hr
  refine ⟨r.1, 2 / r.2 ^ 2, Nodes.store ⟨0, fun _ => 0, fun _ => 0⟩ 2 0 r.1 r.2, ?_, hr0, hr1, ?_,
    ?_, ?_, ?_, ?_⟩
  · change ((nodePasses 2 0).bind (nodePass 2 0)) = _
    change ((hermiteGuess 2 0 0 fun _ => 0).bind fun z =>
      (newtonLoop 2 99 z).map fun r => Nodes.store ⟨0, fun _ => 0, fun _ => 0⟩ 2 0 r.1 r.2) = _
    rw [hx, Option.bind_some, hr, Option.map_some]
  · rw [hp]
    have := pow_pos (abs_pos.2 hy) 2
    rw [sq_abs] at this
    positivity
  all_goals simp [Nodes.store]

/-- The result for two states, for every `k` that passes. -/
theorem hussey_two {a s r : ℝ} {k : PyVal ℝ} (hs : 0 < s) (hr : -1 ≤ r) (hr' : r ≤ 1)
    {ko : Option ℝ} (hk : husseyScale k s r = .ok ko) {q : Nodes} (hq : hermiteNodes 2 = some q) :
    approximationTauchenHussey (.int 2) (.float (.fin a)) (.float (.fin s)) (.float (.fin r)) .none k =
      .ok (ko.map fun k => ⟨2, husseyMatrix q 2 a s r k, createLabels 2 ""⟩) := by
  unfold approximationTauchenHussey
  rw [validateInteger_of_ge (by norm_num), R.ok_bind,
    show validateFloat (.float (.fin a)) none none = .ok a by
      rw [C03_float_limits]; simp [WithinLimits], R.ok_bind,
    show validateFloat (.float (.fin s)) (some (0, true)) none = .ok s by
      rw [C03_float_limits]; simp [WithinLimits, hs], R.ok_bind,
    validateFloat_of_closed hr hr', R.ok_bind]
  erw [R.ok_bind]
  rw [hk, R.ok_bind]
  erw [hq]
  rfl

/-- C106, calls are accepted: two states, every mean, every positive deviation and every correlation
strictly between `-1` and `1`, with the default of `k`. -/
theorem C106_accepts (a : ℝ) {s r : ℝ} (hs : 0 < s) (hr : -1 < r) (hr' : r < 1) :
    ∃ c, approximationTauchenHussey (.int 2) (.float (.fin a)) (.float (.fin s)) (.float (.fin r))
      .none .none = .ok (some c) := by
  obtain ⟨z, w, q, hq, -⟩ := hermiteNodes_two
  have hk : husseyScale .none s r = .ok (husseyDefault s r) := rfl
  unfold husseyDefault at hk
  rw [if_neg (by nlinarith)] at hk
  exact ⟨_, hussey_two hs hr.le hr'.le hk hq⟩

/-- C106, disagreement. With the correlations `1` and `-1`, which pass the validation, and without `k`,
the default of `k` is infinite and a chain with entries `nan` is returned. -/
theorem C106_unit_root_nan (a : ℝ) {s r : ℝ} (hs : 0 < s) (hr : r = 1 ∨ r = -1) :
    approximationTauchenHussey (.int 2) (.float (.fin a)) (.float (.fin s)) (.float (.fin r))
      .none .none = .ok none := by
  obtain ⟨z, w, q, hq, -⟩ := hermiteNodes_two
  have hk : husseyScale .none s r = .ok (husseyDefault s r) := rfl
  unfold husseyDefault at hk
  rw [if_pos (by rcases hr with rfl | rfl <;> norm_num)] at hk
  exact hussey_two hs (by rcases hr with rfl | rfl <;> norm_num)
    (by rcases hr with rfl | rfl <;> norm_num) hk hq

/-- C106, disagreement. The quadrature with two nodes is exact for polynomials up to the third degree,
but the nodes are too far from the mean: the variance that the nodes and weights give is at least
`2 * k ^ 2`, while they are used for a distribution with variance `k ^ 2`. -/
theorem C106_nodes_too_wide (a : ℝ) {k : ℝ} (hk : 0 < k) : ∃ q, hermiteNodes 2 = some q ∧
    2 * k ^ 2 * (q.weights 0 + q.weights 1) ≤
      q.weights 0 * (husseyNode q a k 0 - a) ^ 2 + q.weights 1 * (husseyNode q a k 1 - a) ^ 2 := by
  obtain ⟨z, w, q, hq, hz, hz1, hw, h0, h1, w0, w1⟩ := hermiteNodes_two
  refine ⟨q, hq, ?_⟩
  rw [husseyNode_eq q a hk, husseyNode_eq q a hk, h0, h1, w0, w1]
  have : 0 ≤ w * k ^ 2 * (2 * z ^ 2 - 1) := by
    have : 0 ≤ 2 * z ^ 2 - 1 := by linarith
    positivity
  nlinarith

/-- The probability to change the state. -/
theorem hussey_two_change {q : Nodes} {a s r k z w : ℝ} (hs : 0 < s) (hk : 0 < k) (hw : 0 < w)
    (h0 : q.nodes 0 = -z) (h1 : q.nodes 1 = z) (w0 : q.weights 0 = w) (w1 : q.weights 1 = w) :
    husseyMatrix q 2 a s r k 0 1 = 1 / (1 + Real.exp (8 * r * k ^ 2 * z ^ 2 / s ^ 2)) ∧
      husseyMatrix q 2 a s r k 1 0 = husseyMatrix q 2 a s r k 0 1 := by
  have hpos : ∀ i j : ℕ, j < 2 → 0 < husseyEntry q a s r k i j := by
    intro i j hj
    refine husseyEntry_pos hs hk ?_
    interval_cases j
    · rw [w0]; exact hw
    · rw [w1]; exact hw
  have hm : husseyEntry q a s r k 1 0 = husseyEntry q a s r k 0 1 :=
    husseyEntry_mirror hk (by simp [h0, h1]) (by simp [h0, h1]) (by rw [w0, w1])
  have hm' : husseyEntry q a s r k 1 1 = husseyEntry q a s r k 0 0 :=
    husseyEntry_mirror hk (by simp [h0, h1]) (by simp [h0, h1]) (by first | rfl | rw [w0, w1])
  have he : husseyEntry q a s r k 0 0 =
      husseyEntry q a s r k 0 1 * Real.exp (8 * r * k ^ 2 * z ^ 2 / s ^ 2) := by
    unfold husseyEntry normPdf
    simp only [husseyNode_eq q a hk, h0, h1, w0, w1]
    have e1 : Real.exp (-((a + 2 * k * -z - ((1 - r) * a + r * (a + 2 * k * -z))) / s) ^ 2 / 2) =
        Real.exp (-((a + 2 * k * z - ((1 - r) * a + r * (a + 2 * k * -z))) / s) ^ 2 / 2) *
          Real.exp (8 * r * k ^ 2 * z ^ 2 / s ^ 2) := by
      rw [← Real.exp_add]
      congr 1
      field_simp
      ring
    have e2 : Real.exp (-((a + 2 * k * -z - a) / k) ^ 2 / 2) =
        Real.exp (-((a + 2 * k * z - a) / k) ^ 2 / 2) := by
      congr 3
      ring
    rw [e1, e2]
    ring
  have hA : husseyMatrix q 2 a s r k 0 1 = 1 / (1 + Real.exp (8 * r * k ^ 2 * z ^ 2 / s ^ 2)) := by
    unfold husseyMatrix
    rw [Fin.sum_univ_two]
    change husseyEntry q a s r k 0 1 / (husseyEntry q a s r k 0 0 + husseyEntry q a s r k 0 1) = _
    have := hpos 0 1 (by norm_num)
    rw [he]
    have he' := Real.exp_pos (8 * r * k ^ 2 * z ^ 2 / s ^ 2)
    field_simp
    ring
  refine ⟨hA, ?_⟩
  unfold husseyMatrix
  rw [Fin.sum_univ_two, Fin.sum_univ_two]
  change husseyEntry q a s r k 1 0 / (husseyEntry q a s r k 1 0 + husseyEntry q a s r k 1 1) =
    husseyEntry q a s r k 0 1 / (husseyEntry q a s r k 0 0 + husseyEntry q a s r k 0 1)
  rw [hm, hm', add_comm]

/-- C106, disagreement. The process with correlation `1 / 2` and deviation `1` is approximated with the
default of `k` by a chain with two states whose correlation, `p[0, 0] - p[0, 1]`, exceeds `3 / 4`. -/
theorem C106_too_persistent : ∃ c : MC ℝ, ∃ hn : c.n = 2,
    approximationTauchenHussey (.int 2) (.float (.fin 0)) (.float (.fin 1)) (.float (.fin (1 / 2)))
      .none .none = .ok (some c) ∧
    (∀ i j : Fin 2, i ≠ j → c.p (i.cast hn.symm) (j.cast hn.symm) < 1 / 8) := by
  obtain ⟨z, w, q, hq, hz, hz1, hw, h0, h1, w0, w1⟩ := hermiteNodes_two
  have hk : husseyScale .none (1 : ℝ) (1 / 2) = .ok (husseyDefault 1 (1 / 2)) := rfl
  unfold husseyDefault at hk
  rw [if_neg (by norm_num)] at hk
  obtain ⟨k, hkd⟩ : ∃ k, k = (1 / 2 + (1 / 2 : ℝ) / 4) * 1 +
    (1 - (1 / 2 + (1 / 2) / 4)) * (1 / Real.sqrt (1 - (1 / 2) ^ 2)) := ⟨_, rfl⟩
  rw [← hkd] at hk
  have hk1 : 1 ≤ k := by
    have : 1 ≤ 1 / Real.sqrt (1 - (1 / 2) ^ 2) := by
      rw [le_div_iff₀ (Real.sqrt_pos.2 (by norm_num)), one_mul, Real.sqrt_le_left (by norm_num)]
      norm_num
    rw [hkd]
    linarith
  have hk0 : 0 < k := by linarith
  refine ⟨_, rfl, hussey_two one_pos (by norm_num) (by norm_num) hk hq, ?_⟩
  obtain ⟨hA, hB⟩ := hussey_two_change (a := 0) (r := 1 / 2) one_pos hk0 hw h0 h1 w0 w1
  have hlt : husseyMatrix q 2 0 1 (1 / 2) k 0 1 < 1 / 8 := by
    rw [hA]
    have h2 : (2 : ℝ) ≤ 8 * (1 / 2) * k ^ 2 * z ^ 2 / 1 ^ 2 := by
      have h3 : 1 ≤ k ^ 2 := by nlinarith
      nlinarith
    have h3 : Real.exp 2 ≤ Real.exp (8 * (1 / 2) * k ^ 2 * z ^ 2 / 1 ^ 2) := Real.exp_le_exp.2 h2
    have h4 : (7 : ℝ) < Real.exp 2 := by
      have := Real.exp_one_gt_d9
      rw [show (2 : ℝ) = 1 + 1 by norm_num, Real.exp_add]
      nlinarith
    rw [div_lt_div_iff₀ (by positivity) (by norm_num)]
    linarith
  intro i j hij
  fin_cases i <;> fin_cases j
  · exact absurd rfl hij
  · exact hlt
  · exact lt_of_eq_of_lt hB hlt
  · exact absurd rfl hij

end Verif
