import Verif.Lemmas.Stationary
import Verif.Lemmas.Primitive
import Mathlib.Algebra.Order.Field.Basic
import Mathlib.Algebra.Order.Archimedean.Basic

/-!
# Long-run behaviour of finite chains

The powers of a primitive matrix contract, the averages of an irreducible chain converge, and the second
moments of sums along the path of a chain grow linearly.
-/

set_option linter.unusedSectionVars false

namespace Verif

open Finset

variable {K : Type*} [Field K] [LinearOrder K] [IsStrictOrderedRing K]
variable {ι : Type*} [Fintype ι] [DecidableEq ι]

/-- A stochastic matrix with entries at least `e` contracts the range of a vector. -/
theorem minor_contract {Q : ι → ι → K} (hQ : IsStochastic Q) {e : K} (he : ∀ i j, e ≤ Q i j)
    {v : ι → K} {a b : K} (ha : ∀ i, a ≤ v i) (hb : ∀ i, v i ≤ b) :
    ∃ s, ∀ i, s + (1 - Fintype.card ι * e) * a ≤ ∑ j, Q i j * v j ∧
      ∑ j, Q i j * v j ≤ s + (1 - Fintype.card ι * e) * b := by
  refine ⟨e * ∑ j, v j, fun i => ?_⟩
  have h1 : ∑ j, Q i j * v j = e * ∑ j, v j + ∑ j, (Q i j - e) * v j := by
    rw [mul_sum, ← sum_add_distrib]
    exact sum_congr rfl fun j _ => by ring
  have h2 : ∑ j, (Q i j - e) = 1 - Fintype.card ι * e := by
    rw [sum_sub_distrib, hQ.2 i, sum_const, card_univ, nsmul_eq_mul]
  rw [h1, ← h2, sum_mul, sum_mul]
  exact ⟨by gcongr with j _; exacts [sub_nonneg.2 (he i j), ha j],
    by gcongr with j _; exacts [sub_nonneg.2 (he i j), hb j]⟩

/-- The entries of a column of the powers lie in intervals that shrink geometrically. -/
theorem pow_range {P : Matrix ι ι K} (hP : IsStochastic P) {m : ℕ} {e : K}
    (he : ∀ i j, e ≤ (P ^ m) i j) (t r : ℕ) (j : ι) :
    ∃ a b, b - a = (1 - Fintype.card ι * e) ^ t ∧
      ∀ i, a ≤ (P ^ (m * t + r)) i j ∧ (P ^ (m * t + r)) i j ≤ b := by
  induction t with
  | zero =>
    refine ⟨0, 1, by simp, fun i => ?_⟩
    rw [Nat.mul_zero, Nat.zero_add]
    exact ⟨(hP.pow r).1 i j, (hP.pow r).le_one i j⟩
  | succ t ih =>
    obtain ⟨a, b, h1, h2⟩ := ih
    obtain ⟨s, hs⟩ := minor_contract (hP.pow m) he (v := fun i => (P ^ (m * t + r)) i j)
      (fun i => (h2 i).1) (fun i => (h2 i).2)
    refine ⟨s + (1 - Fintype.card ι * e) * a, s + (1 - Fintype.card ι * e) * b, ?_, fun i => ?_⟩
    · rw [pow_succ, ← h1]
      ring
    · have h3 : (P ^ (m * (t + 1) + r)) i j = ∑ l, (P ^ m) i l * (P ^ (m * t + r)) l j := by
        rw [← Matrix.mul_apply, ← pow_add, show m * (t + 1) + r = m + (m * t + r) by ring]
      rw [h3]
      exact hs i

theorem IsStationary.pow {P : Matrix ι ι K} {x : ι → K} (hx : IsStationary P x) (k : ℕ) (j : ι) :
    ∑ i, x i * (P ^ k) i j = x j := by
  induction k generalizing j with
  | zero => simp [Matrix.one_apply]
  | succ k ih =>
    simp only [pow_succ, Matrix.mul_apply, mul_sum]
    rw [sum_comm]
    calc ∑ l, ∑ i, x i * ((P ^ k) i l * P l j) = ∑ l, (∑ i, x i * (P ^ k) i l) * P l j := by
          refine sum_congr rfl fun l _ => ?_
          rw [sum_mul]
          exact sum_congr rfl fun i _ => by ring
      _ = x j := by
          simp only [ih]
          exact hx.2 j

/-- If every entry of the `m`-th power is at least `e`, then the powers approach the stationary
distribution at a geometric rate. -/
theorem pow_near_stationary {P : Matrix ι ι K} (hP : IsStochastic P) {x : ι → K}
    (hx : IsStationary P x) {m : ℕ} {e : K} (he : ∀ i j, e ≤ (P ^ m) i j) (k : ℕ) (i j : ι) :
    |(P ^ k) i j - x j| ≤ (1 - Fintype.card ι * e) ^ (k / m) := by
  obtain ⟨a, b, h1, h2⟩ := pow_range hP he (k / m) (k % m) j
  rw [Nat.div_add_mod] at h2
  have h3 : a ≤ x j := by
    rw [← hx.pow k j]
    calc a = ∑ i, x i * a := by rw [← sum_mul, hx.1.2, one_mul]
      _ ≤ _ := sum_le_sum fun i _ => mul_le_mul_of_nonneg_left (h2 i).1 (hx.1.1 i)
  have h4 : x j ≤ b := by
    rw [← hx.pow k j]
    calc _ ≤ ∑ i, x i * b := sum_le_sum fun i _ => mul_le_mul_of_nonneg_left (h2 i).2 (hx.1.1 i)
      _ = b := by rw [← sum_mul, hx.1.2, one_mul]
  rw [← h1, abs_le]
  have := h2 i
  constructor <;> linarith

/-- A primitive chain approaches its stationary distribution at a geometric rate. -/
theorem primitive_rate [Nonempty ι] {P : Matrix ι ι K} (hP : IsStochastic P) {x : ι → K}
    (hx : IsStationary P x) (hp : Primitive P) :
    ∃ m r, 0 < m ∧ 0 ≤ r ∧ r < 1 ∧ ∀ k i j, |(P ^ k) i j - x j| ≤ r ^ (k / m) := by
  obtain ⟨m, hm, h⟩ := hp
  have hpos : ∀ i j, 0 < (P ^ m) i j := fun i j => (reachIn_iff_pow_pos hP.1 m i j).1 (h i j)
  obtain ⟨q, -, hq⟩ := exists_min_image (univ : Finset (ι × ι)) (fun q => (P ^ m) q.1 q.2)
    univ_nonempty
  have he : ∀ i j, (P ^ m) q.1 q.2 ≤ (P ^ m) i j := fun i j => hq (i, j) (mem_univ _)
  refine ⟨m, _, hm, ?_, ?_, fun k i j => pow_near_stationary hP hx he k i j⟩
  · obtain ⟨i⟩ := (inferInstance : Nonempty ι)
    have h1 : ∑ _j : ι, (P ^ m) q.1 q.2 ≤ ∑ j, (P ^ m) i j := sum_le_sum fun j _ => he i j
    rw [(hP.pow m).2 i, sum_const, card_univ, nsmul_eq_mul] at h1
    linarith
  · have h1 : (0 : K) < Fintype.card ι := by exact_mod_cast Fintype.card_pos
    have := mul_pos h1 (hpos q.1 q.2)
    linarith

/-- Geometric rates vanish. -/
theorem rate_vanishes [Archimedean K] {m : ℕ} {r : K} (hm : 0 < m) (h0 : 0 ≤ r) (h1 : r < 1) {e : K}
    (he : 0 < e) : ∃ N, ∀ k ≥ N, r ^ (k / m) < e := by
  obtain ⟨t, ht⟩ := exists_pow_lt_of_lt_one he h1
  refine ⟨m * t, fun k hk => lt_of_le_of_lt (pow_le_pow_of_le_one h0 h1.le ?_) ht⟩
  rw [Nat.le_div_iff_mul_le hm]
  linarith [hk, Nat.mul_comm m t]

/-! ## Averages -/

/-- A solution of the Poisson equation bounds the averages of the powers. -/
theorem sum_pow_poisson {P : Matrix ι ι K} {x : ι → K} {z : ι → ι → K}
    (hz : ∀ i j, ∑ k, P i k * z k j = z i j + x j - (1 : Matrix ι ι K) i j)
    (hP : IsStochastic P) (k : ℕ) (i j : ι) :
    ∑ t ∈ range k, (P ^ t) i j - k * x j = z i j - ∑ l, (P ^ k) i l * z l j := by
  induction k with
  | zero => simp [Matrix.one_apply]
  | succ k ih =>
    have h1 : ∑ l, (P ^ (k + 1)) i l * z l j = ∑ l, (P ^ k) i l * z l j + x j - (P ^ k) i j := by
      calc ∑ l, (P ^ (k + 1)) i l * z l j = ∑ l, (P ^ k) i l * ∑ a, P l a * z a j := by
            simp only [pow_succ, Matrix.mul_apply, sum_mul, mul_sum]
            rw [sum_comm]
            exact sum_congr rfl fun l _ => sum_congr rfl fun a _ => by ring
        _ = ∑ l, ((P ^ k) i l * z l j + (P ^ k) i l * x j - (P ^ k) i l * (1 : Matrix ι ι K) l j) :=
            sum_congr rfl fun l _ => by rw [hz]; ring
        _ = _ := by
            rw [sum_sub_distrib, sum_add_distrib, ← sum_mul, (hP.pow k).2 i, one_mul]
            congr 1
            rw [← Matrix.mul_apply, mul_one]
    rw [sum_range_succ, h1]
    push_cast
    linarith

/-- Averages of the rows of the powers differ from the stationary distribution by a multiple of `1 / k`. -/
theorem averages_near {P : Matrix ι ι K} {x : ι → K} {z : ι → ι → K}
    (hz : ∀ i j, ∑ k, P i k * z k j = z i j + x j - (1 : Matrix ι ι K) i j)
    (hP : IsStochastic P) {B : K} (hB : ∀ i j, |z i j| ≤ B) {k : ℕ} (hk : 0 < k) (i j : ι) :
    |(∑ t ∈ range k, (P ^ t) i j) / k - x j| ≤ 2 * B / k := by
  have hk' : (0 : K) < k := by exact_mod_cast hk
  have h1 : (∑ t ∈ range k, (P ^ t) i j) / k - x j =
      (∑ t ∈ range k, (P ^ t) i j - k * x j) / k := by
    field_simp
  rw [h1, abs_div, abs_of_pos hk', sum_pow_poisson hz hP]
  gcongr
  have h2 : |∑ l, (P ^ k) i l * z l j| ≤ B := by
    refine (abs_sum_le_sum_abs _ _).trans ?_
    calc ∑ l, |(P ^ k) i l * z l j| ≤ ∑ l, (P ^ k) i l * B := by
          refine sum_le_sum fun l _ => ?_
          rw [abs_mul, abs_of_nonneg ((hP.pow k).1 i l)]
          exact mul_le_mul_of_nonneg_left (hB l j) ((hP.pow k).1 i l)
      _ = B := by rw [← sum_mul, (hP.pow k).2 i, one_mul]
  calc _ ≤ |z i j| + |∑ l, (P ^ k) i l * z l j| := abs_sub _ _
    _ ≤ 2 * B := by linarith [hB i j]

/-! ## Sums along the path -/

/-- The sum of `g` over the moves of a path. -/
def moveSum (g : ι → ι → K) : List ι → K
  | [] => 0
  | [_] => 0
  | a :: b :: t => g a b + moveSum g (b :: t)

/-- If the increments `g a b + w b - w a` have mean zero and squares at most `V`, then the second moment
of the sum along the path grows at most linearly. -/
theorem second_moment {P : ι → ι → K} (hP : IsStochastic P) {g : ι → ι → K} {w : ι → K} {V : K}
    (h0 : ∀ a, ∑ b, P a b * (g a b + w b - w a) = 0)
    (hV : ∀ a b, (g a b + w b - w a) ^ 2 ≤ V) (k : ℕ) (i : ι) (s : K) :
    expect P k i (fun l => (s + moveSum g (i :: l) + w (l.getLastD i)) ^ 2) ≤ (s + w i) ^ 2 + k * V := by
  induction k generalizing i s with
  | zero => simp [expect, moveSum]
  | succ k ih =>
    have h1 : ∀ j, expect P k j (fun l => (s + moveSum g (i :: j :: l) + w ((j :: l).getLastD i)) ^ 2) ≤
        (s + g i j + w j) ^ 2 + k * V := by
      intro j
      refine le_trans (le_of_eq ?_) (ih j (s + g i j))
      congr 1
      funext l
      simp only [moveSum, List.getLastD_cons]
      ring
    simp only [expect]
    calc _ ≤ ∑ j, P i j * ((s + g i j + w j) ^ 2 + k * V) :=
          sum_le_sum fun j _ => mul_le_mul_of_nonneg_left (h1 j) (hP.1 i j)
      _ = ∑ j, (P i j * ((s + w i) ^ 2 + k * V) + 2 * (s + w i) * (P i j * (g i j + w j - w i)) +
            P i j * (g i j + w j - w i) ^ 2) := sum_congr rfl fun j _ => by ring
      _ = (s + w i) ^ 2 + k * V + ∑ j, P i j * (g i j + w j - w i) ^ 2 := by
          rw [sum_add_distrib, sum_add_distrib, ← mul_sum, h0, ← sum_mul, hP.2 i]
          ring
      _ ≤ (s + w i) ^ 2 + k * V + ∑ j, P i j * V := by
          gcongr with j _
          · exact hP.1 i j
          · exact hV i j
      _ = (s + w i) ^ 2 + (k + 1 : ℕ) * V := by
          rw [← sum_mul, hP.2 i]
          push_cast
          ring

/-- Chebyshev's inequality along the path. -/
theorem path_chebyshev {P : ι → ι → K} (hP : IsStochastic P) {g : ι → ι → K} {w h : ι → K} {V B : K}
    (h0 : ∀ a, ∑ b, P a b * (g a b + w b - w a) = 0)
    (hV : ∀ a b, (g a b + w b - w a) ^ 2 ≤ V) (hw : ∀ a, w a ^ 2 ≤ B) (hh : ∀ a, (h a - w a) ^ 2 ≤ B)
    {k : ℕ} {e : K} (he : 0 < e) (i : ι) (E : List ι → Prop) [DecidablePred E]
    (hE : ∀ l, l.length = k → E l → e ≤ |moveSum g (i :: l) + h (l.getLastD i)|) :
    prob P k i E ≤ (4 * B + 2 * k * V) / e ^ 2 := by
  rw [le_div_iff₀ (by positivity)]
  have h1 : prob P k i E * e ^ 2 ≤
      expect P k i (fun l => 2 * (0 + moveSum g (i :: l) + w (l.getLastD i)) ^ 2 + 2 * B) := by
    rw [mul_comm]
    unfold prob
    rw [← expect_smul]
    refine expect_mono hP.1 fun l hl => ?_
    have h3 := hh (l.getLastD i)
    have h4 := sq_nonneg (moveSum g (i :: l) + w (l.getLastD i) - (h (l.getLastD i) - w (l.getLastD i)))
    split
    · rename_i hEl
      have h2 : e ^ 2 ≤ (moveSum g (i :: l) + h (l.getLastD i)) ^ 2 := by
        rw [← sq_abs (moveSum g (i :: l) + h (l.getLastD i))]
        exact pow_le_pow_left₀ he.le (hE l hl hEl) 2
      nlinarith
    · have := sq_nonneg (0 + moveSum g (i :: l) + w (l.getLastD i))
      have := (sq_nonneg _).trans h3
      rw [mul_zero]
      linarith
  refine h1.trans ?_
  rw [expect_add, expect_smul, expect_const hP]
  have h2 := second_moment hP h0 hV k i 0
  have h3 := hw i
  rw [zero_add] at h2
  linarith

theorem finite_bound (F : ι → K) : ∃ B, 0 ≤ B ∧ ∀ a, F a ≤ B :=
  ⟨∑ a, |F a|, sum_nonneg fun _ _ => abs_nonneg _, fun a =>
    (le_abs_self _).trans (single_le_sum (f := fun a => |F a|) (fun _ _ => abs_nonneg _) (mem_univ a))⟩

/-- Chebyshev's inequality along the path, with a bound that does not depend on the length of the path. -/
theorem path_concentrates {P : ι → ι → K} (hP : IsStochastic P) {g : ι → ι → K} {w : ι → K} (h : ι → K)
    (h0 : ∀ a, ∑ b, P a b * (g a b + w b - w a) = 0) :
    ∃ C, 0 ≤ C ∧ ∀ (k : ℕ) (e : K), 0 < k → 0 < e → ∀ (i : ι) (E : List ι → Prop) [DecidablePred E],
      (∀ l, l.length = k → E l → e * k ≤ |moveSum g (i :: l) + h (l.getLastD i)|) →
      prob P k i E ≤ C / (e ^ 2 * k) := by
  obtain ⟨V, hV0, hV⟩ := finite_bound fun q : ι × ι => (g q.1 q.2 + w q.2 - w q.1) ^ 2
  obtain ⟨B1, hB1, hw⟩ := finite_bound fun a => w a ^ 2
  obtain ⟨B2, hB2, hh⟩ := finite_bound fun a => (h a - w a) ^ 2
  refine ⟨4 * (B1 + B2) + 2 * V, by positivity, fun k e hk he i E _ hE => ?_⟩
  have hk' : (1 : K) ≤ k := by exact_mod_cast hk
  have hk0 : (0 : K) < k := by linarith
  refine (path_chebyshev hP h0 (fun a b => hV (a, b)) (fun a => (hw a).trans (by linarith))
    (fun a => (hh a).trans (le_add_of_nonneg_left hB1)) (mul_pos he hk0) i E hE).trans ?_
  rw [div_le_div_iff₀ (by positivity) (by positivity)]
  have h1 : 4 * (B1 + B2) + 2 * k * V ≤ k * (4 * (B1 + B2) + 2 * V) := by nlinarith
  calc (4 * (B1 + B2) + 2 * k * V) * (e ^ 2 * k) ≤ k * (4 * (B1 + B2) + 2 * V) * (e ^ 2 * k) := by
        gcongr
    _ = _ := by ring

theorem prob_mono {P : ι → ι → K} (hP : ∀ i j, 0 ≤ P i j) {k : ℕ} {i : ι} {E F : List ι → Prop}
    [DecidablePred E] [DecidablePred F] (h : ∀ l, l.length = k → E l → F l) :
    prob P k i E ≤ prob P k i F := by
  refine expect_mono hP fun l hl => ?_
  by_cases hE : E l
  · rw [if_pos hE, if_pos (h l hl hE)]
  · rw [if_neg hE]
    split <;> norm_num

theorem prob_union {P : ι → ι → K} (hP : ∀ i j, 0 ≤ P i j) {k : ℕ} {i : ι} (E F : List ι → Prop)
    [DecidablePred E] [DecidablePred F] :
    prob P k i (fun l => E l ∨ F l) ≤ prob P k i E + prob P k i F := by
  unfold prob
  rw [← expect_add]
  refine expect_mono hP fun l _ => ?_
  by_cases hE : E l <;> by_cases hF : F l <;> simp [hE, hF]

/-! ## Visits -/

theorem count_moveSum (j : ι) (x : K) (i : ι) (l : List ι) :
    ((i :: l).count j : K) - (l.length + 1) * x =
      moveSum (fun a _ => (if a = j then 1 else 0) - x) (i :: l) +
        ((if l.getLastD i = j then 1 else 0) - x) := by
  induction l generalizing i with
  | nil => simp [moveSum, List.count_cons]
  | cons a l ih =>
    have h := ih a
    simp only [moveSum, List.getLastD_cons, List.length_cons]
    rw [add_assoc, ← h, List.count_cons (b := i)]
    push_cast
    simp only [beq_iff_eq]
    ring

/-- The share of the time that an irreducible chain spends in a state concentrates at its stationary
probability. -/
theorem visits_concentrate {P : Matrix ι ι K} (hP : IsStochastic P) {x : ι → K} {z : ι → ι → K}
    (hz : ∀ i j, ∑ k, P i k * z k j = z i j + x j - (1 : Matrix ι ι K) i j) (j : ι) :
    ∃ C, 0 ≤ C ∧ ∀ (k : ℕ) (e : K), 0 < k → 0 < e → ∀ i,
      prob P k i (fun l => e ≤ |((i :: l).count j : K) / (k + 1) - x j|) ≤ C / (e ^ 2 * k) := by
  obtain ⟨C, hC, h⟩ := path_concentrates hP (g := fun a _ => (if a = j then 1 else 0) - x j)
    (w := fun a => z a j) (fun a => (if a = j then 1 else 0) - x j) (fun a => by
      have : ∀ b, P a b * ((if a = j then 1 else 0) - x j + z b j - z a j) =
          P a b * ((if a = j then 1 else 0) - x j - z a j) + P a b * z b j := fun b => by ring
      simp only [this]
      rw [sum_add_distrib, ← sum_mul, hP.2 a, hz, Matrix.one_apply]
      ring)
  refine ⟨C, hC, fun k e hk he i => h k e hk he i _ fun l hl hE => ?_⟩
  have hk' : (0 : K) < k + 1 := by positivity
  rw [← count_moveSum, hl]
  have h1 : ((i :: l).count j : K) / (k + 1) - x j = (((i :: l).count j : K) - (k + 1) * x j) / (k + 1) := by
    field_simp
  rw [h1, abs_div, abs_of_pos hk', le_div_iff₀ hk'] at hE
  linarith

end Verif
