import Verif.Model.Entropy
import Verif.Props.Monotone
import Verif.Props.Passage
import Verif.Lemmas.Cast
import Mathlib.Analysis.SpecialFunctions.Log.NegMulLog
import Mathlib.Tactic.FinCases

/-!
# Entropy rate (C52)
-/

set_option linter.unusedSectionVars false

namespace Verif

open Finset

/-- The entropy of a distribution. -/
noncomputable def entropy {ι : Type*} [Fintype ι] (p : ι → ℝ) : ℝ := ∑ j, Real.negMulLog (p j)

section Basic

variable {ι : Type*} [Fintype ι] {p : ι → ℝ}

theorem entropy_nonneg (hp : IsDist p) : 0 ≤ entropy p :=
  Finset.sum_nonneg fun j _ => Real.negMulLog_nonneg (hp.1 j) (by
    rw [← hp.2]
    exact Finset.single_le_sum (f := p) (fun i _ => hp.1 i) (mem_univ j))

theorem entropy_le (hp : IsDist p) : entropy p ≤ Real.log (Fintype.card ι) := by
  have hne : Nonempty ι := by
    by_contra h
    rw [not_nonempty_iff] at h
    have := hp.2
    simp at this
  have hn : (0 : ℝ) < Fintype.card ι := by exact_mod_cast Fintype.card_pos
  have h1 : ∀ j, Real.negMulLog (p j) - p j * Real.log (Fintype.card ι) ≤
      1 / Fintype.card ι - p j := by
    intro j
    rcases (hp.1 j).eq_or_lt with h0 | h0
    · rw [← h0]; simp
    · have h2 := Real.log_le_sub_one_of_pos (x := 1 / (Fintype.card ι * p j))
        (by positivity)
      rw [Real.log_div one_ne_zero (by positivity), Real.log_one, Real.log_mul hn.ne' h0.ne',
        zero_sub] at h2
      have h3 := mul_le_mul_of_nonneg_left h2 h0.le
      have h4 : p j * (1 / (Fintype.card ι * p j) - 1) = 1 / Fintype.card ι - p j := by
        field_simp
      rw [h4] at h3
      unfold Real.negMulLog
      linarith
  have h5 := Finset.sum_le_sum fun j (_ : j ∈ univ) => h1 j
  rw [Finset.sum_sub_distrib, Finset.sum_sub_distrib, ← Finset.sum_mul, hp.2, Finset.sum_const,
    Finset.card_univ, nsmul_eq_mul, mul_one_div_cancel hn.ne'] at h5
  unfold entropy
  linarith

/-- The entropy is zero exactly for a certain outcome. -/
theorem entropy_eq_zero (hp : IsDist p) : entropy p = 0 ↔ ∃ j, p j = 1 := by
  classical
  have hle : ∀ j, p j ≤ 1 := fun j => by
    rw [← hp.2]
    exact Finset.single_le_sum (f := p) (fun i _ => hp.1 i) (mem_univ j)
  have h1 : entropy p = 0 ↔ ∀ j, Real.negMulLog (p j) = 0 := by
    unfold entropy
    rw [Finset.sum_eq_zero_iff_of_nonneg fun j _ => Real.negMulLog_nonneg (hp.1 j) (hle j)]
    simp
  rw [h1]
  constructor
  · intro h
    by_contra hcon
    push Not at hcon
    have h0 : ∀ j, p j = 0 := by
      intro j
      rcases (hp.1 j).eq_or_lt with h0 | h0
      · exact h0.symm
      · have := h j
        unfold Real.negMulLog at this
        have hlog : Real.log (p j) < 0 := Real.log_neg h0 (lt_of_le_of_ne (hle j) (hcon j))
        nlinarith
    have := hp.2
    simp [h0] at this
  · rintro ⟨j, hj⟩ k
    by_cases hk : k = j
    · rw [hk, hj]; simp
    · have : p k = 0 := by
        have h2 : p k + p j ≤ 1 := by
          rw [← hp.2, ← Finset.sum_pair hk]
          exact Finset.sum_le_sum_of_subset_of_nonneg (subset_univ _) fun i _ _ => hp.1 i
        have := hp.1 k
        linarith
      rw [this]; simp

end Basic

theorem entropySum_eq (c : MC ℝ) (hc : c.Valid) (x : Fin c.n → ℝ) :
    entropySum c x = -∑ i, x i * entropy (c.p i) := by
  unfold entropySum entropy
  rw [← Finset.sum_neg_distrib]
  refine Finset.sum_congr rfl fun i _ => ?_
  rw [Finset.mul_sum, ← Finset.sum_neg_distrib]
  refine Finset.sum_congr rfl fun j _ => ?_
  rcases (hc.2.1.1 i j).eq_or_lt with h0 | h0
  · rw [if_neg (by rw [← h0]; exact lt_irrefl _), ← h0]; simp
  · rw [if_pos h0]
    unfold Real.negMulLog
    ring

/-- The entropy rate of a chain with the stationary distribution `x`. -/
noncomputable def rate (c : MC ℝ) (x : Fin c.n → ℝ) : ℝ := ∑ i, x i * entropy (c.p i)

theorem rate_bounds {c : MC ℝ} (hc : c.Valid) {x : Fin c.n → ℝ} (hx : IsDist x) :
    0 ≤ rate c x ∧ rate c x ≤ Real.log c.n ∧
      (rate c x = 0 ↔ ∀ i, 0 < x i → ∃ j, c.p i j = 1) := by
  have hrow : ∀ i, IsDist (c.p i) := fun i => ⟨hc.2.1.1 i, hc.2.1.2 i⟩
  have hnn : ∀ i ∈ univ, 0 ≤ x i * entropy (c.p i) := fun i _ =>
    mul_nonneg (hx.1 i) (entropy_nonneg (hrow i))
  refine ⟨Finset.sum_nonneg hnn, ?_, ?_⟩
  · have h1 : ∀ i ∈ univ, x i * entropy (c.p i) ≤ x i * Real.log c.n := fun i _ => by
      refine mul_le_mul_of_nonneg_left ?_ (hx.1 i)
      have := entropy_le (hrow i)
      rwa [Fintype.card_fin] at this
    refine le_trans (Finset.sum_le_sum h1) ?_
    rw [← Finset.sum_mul, hx.2, one_mul]
  · unfold rate
    rw [Finset.sum_eq_zero_iff_of_nonneg hnn]
    constructor
    · intro h i hi
      have := h i (mem_univ i)
      rcases mul_eq_zero.1 this with h0 | h0
      · exact absurd h0 hi.ne'
      · exact (entropy_eq_zero (hrow i)).1 h0
    · intro h i _
      rcases (hx.1 i).eq_or_lt with h0 | h0
      · rw [← h0, zero_mul]
      · rw [(entropy_eq_zero (hrow i)).2 (h i h0), mul_zero]

/-- What `entropy_rate` returns: the entropy rate, with the wrong sign if it is at most `1e-8`. -/
theorem entropyRate_run {c : MC ℝ} (hc : c.Valid) {sccs : List (List (Fin c.n))}
    (h : IsClasses c.p sccs) {x : Fin c.n → ℝ} (hx : IsStationary c.p x)
    (huniq : ∀ y, IsStationary c.p y → y = x) :
    entropyRate c sccs =
      .ok (some (if rate c x ≤ 1 / 10 ^ 8 then -rate c x else rate c x)) := by
  rcases pi_cases hc h with ⟨y, h1, h2, -⟩ | ⟨xs, y, z, -, -, h3, h4, h5⟩
  · obtain rfl := huniq y h2
    unfold entropyRate
    rw [h1]
    change Except.ok (some (if isclose (entropySum c y) 0 = true then entropySum c y else
      -entropySum c y)) = _
    have h6 : isclose (entropySum c y) 0 = true ↔ rate c y ≤ 1 / 10 ^ 8 := by
      unfold isclose
      rw [decide_eq_true_eq, sub_zero, abs_zero, mul_zero, add_zero, entropySum_eq c hc, abs_neg]
      change |rate c y| ≤ _ ↔ _
      rw [abs_of_nonneg (rate_bounds hc h2.1).1]
    have h7 : entropySum c y = -rate c y := entropySum_eq c hc y
    by_cases h8 : rate c y ≤ 1 / 10 ^ 8
    · rw [if_pos (h6.2 h8), if_pos h8, h7]
    · rw [if_neg (fun h9 => h8 (h6.1 h9)), if_neg h8, h7, neg_neg]
  · exact absurd ((huniq y h3).trans (huniq z h4).symm) h5

/-- C52 (partial). For every chain with a unique stationary distribution whose entropy rate is zero
or exceeds `1e-8`, the result is the entropy rate: it is between zero and the logarithm of the number
of states, and zero exactly if the transitions out of the stationary support are certain. -/
theorem C52_entropy_rate_partial {c : MC ℝ} (hc : c.Valid) {sccs : List (List (Fin c.n))}
    (h : IsClasses c.p sccs) {x : Fin c.n → ℝ} (hx : IsStationary c.p x)
    (huniq : ∀ y, IsStationary c.p y → y = x) (hsize : rate c x = 0 ∨ 1 / 10 ^ 8 < rate c x) :
    ∃ r, entropyRate c sccs = .ok (some r) ∧ r = rate c x ∧ 0 ≤ r ∧ r ≤ Real.log c.n ∧
      (r = 0 ↔ ∀ i, 0 < x i → ∃ j, c.p i j = 1) := by
  refine ⟨rate c x, ?_, rfl, rate_bounds hc hx.1⟩
  rw [entropyRate_run hc h hx huniq]
  rcases hsize with h0 | h0
  · rw [h0, if_pos (by norm_num), neg_zero]
  · rw [if_neg (not_le.2 h0)]

/-- The characterisation of zero holds without restriction. -/
theorem C52_zero {c : MC ℝ} (hc : c.Valid) {sccs : List (List (Fin c.n))}
    (h : IsClasses c.p sccs) {x : Fin c.n → ℝ} (hx : IsStationary c.p x)
    (huniq : ∀ y, IsStationary c.p y → y = x) :
    entropyRate c sccs = .ok (some 0) ↔ ∀ i, 0 < x i → ∃ j, c.p i j = 1 := by
  rw [entropyRate_run hc h hx huniq, ← (rate_bounds hc hx.1).2.2]
  constructor
  · intro h1
    injection h1 with h1
    injection h1 with h1
    split at h1
    · exact neg_eq_zero.1 h1
    · exact h1
  · intro h1
    rw [h1]
    norm_num

/-- `None` is returned if there is more than one stationary distribution. -/
theorem C52_none {c : MC ℝ} (hc : c.Valid) {sccs : List (List (Fin c.n))}
    (h : IsClasses c.p sccs) : entropyRate c sccs = .ok none ↔
      ∃ x y, IsStationary c.p x ∧ IsStationary c.p y ∧ x ≠ y := by
  rcases pi_cases hc h with ⟨x, h1, h2, h3⟩ | ⟨xs, y, z, h1, h2, h3, h4, h5⟩
  · constructor
    · intro h6
      rw [entropyRate_run hc h h2 h3] at h6
      cases h6
    · rintro ⟨a, b, ha, hb, hab⟩
      exact absurd ((h3 a ha).trans (h3 b hb).symm) hab
  · refine ⟨fun _ => ⟨y, z, h3, h4, h5⟩, fun _ => ?_⟩
    unfold entropyRate
    rw [h1]
    change (if xs.length > 1 then _ else _) = _
    rw [if_pos (show xs.length > 1 from h2)]
    rfl

/-- A chain that almost always stays in its first state. -/
def exSticking : MC ℚ := ⟨2, !![1 - 1 / 10 ^ 12, 1 / 10 ^ 12; 1, 0], ["a", "b"]⟩

theorem exSticking_classes : IsClasses exSticking.toReal.p ([[0, 1]] : List (List (Fin 2))) := by
  refine toReal_isClasses (c := exSticking) ?_
  change IsClasses (fun i j : Fin 2 => exSticking.p i j) [[0, 1]]
  decide +kernel

theorem exSticking_irreducible : Irreducible exSticking.toReal.p := by
  refine toReal_irreducible (c := exSticking) ?_
  change Irreducible (fun i j : Fin 2 => exSticking.p i j)
  decide +kernel

theorem exSticking_entropy : 0 < entropy (exSticking.toReal.p (0 : Fin 2)) ∧
    entropy (exSticking.toReal.p (0 : Fin 2)) ≤ 1 / 10 ^ 8 ∧
    entropy (exSticking.toReal.p (1 : Fin 2)) = 0 := by
  have q00 : exSticking.p (0 : Fin 2) (0 : Fin 2) = 1 - 1 / 10 ^ 12 := by decide +kernel
  have q01 : exSticking.p (0 : Fin 2) (1 : Fin 2) = 1 / 10 ^ 12 := by decide +kernel
  have q10 : exSticking.p (1 : Fin 2) (0 : Fin 2) = 1 := by decide +kernel
  have q11 : exSticking.p (1 : Fin 2) (1 : Fin 2) = 0 := by decide +kernel
  have p00 : exSticking.toReal.p (0 : Fin 2) (0 : Fin 2) = 1 - 1 / 10 ^ 12 := by
    change ((exSticking.p (0 : Fin 2) (0 : Fin 2) : ℚ) : ℝ) = _
    rw [q00]; push_cast; rfl
  have p01 : exSticking.toReal.p (0 : Fin 2) (1 : Fin 2) = 1 / 10 ^ 12 := by
    change ((exSticking.p (0 : Fin 2) (1 : Fin 2) : ℚ) : ℝ) = _
    rw [q01]; push_cast; rfl
  have p10 : exSticking.toReal.p (1 : Fin 2) (0 : Fin 2) = 1 := by
    change ((exSticking.p (1 : Fin 2) (0 : Fin 2) : ℚ) : ℝ) = _
    rw [q10]; push_cast; rfl
  have p11 : exSticking.toReal.p (1 : Fin 2) (1 : Fin 2) = 0 := by
    change ((exSticking.p (1 : Fin 2) (1 : Fin 2) : ℚ) : ℝ) = _
    rw [q11]; push_cast; rfl
  have e0 : entropy (exSticking.toReal.p (0 : Fin 2)) =
      Real.negMulLog (1 - 1 / 10 ^ 12) + Real.negMulLog (1 / 10 ^ 12) := by
    change ∑ j : Fin 2, Real.negMulLog (exSticking.toReal.p (0 : Fin 2) j) = _
    rw [Fin.sum_univ_two, p00, p01]
  have e1 : entropy (exSticking.toReal.p (1 : Fin 2)) = 0 := by
    change ∑ j : Fin 2, Real.negMulLog (exSticking.toReal.p (1 : Fin 2) j) = _
    rw [Fin.sum_univ_two, p10, p11]
    simp
  have hlog : Real.log (1 / 10 ^ 12) = -(12 * Real.log 10) := by
    rw [Real.log_div one_ne_zero (by positivity), Real.log_one, Real.log_pow]
    push_cast
    ring
  have h10 : 0 < Real.log 10 := Real.log_pos (by norm_num)
  have h10' : Real.log 10 ≤ 9 := by
    have := Real.log_le_sub_one_of_pos (x := 10) (by norm_num)
    linarith
  have h1 : 0 ≤ Real.negMulLog (1 - 1 / 10 ^ 12) :=
    Real.negMulLog_nonneg (by norm_num) (by norm_num)
  have h2 : Real.negMulLog (1 - 1 / 10 ^ 12) ≤ 1 / 10 ^ 12 := by
    have h3 := Real.one_sub_inv_le_log_of_pos (x := 1 - 1 / 10 ^ 12) (by norm_num)
    unfold Real.negMulLog
    have h4 := mul_le_mul_of_nonneg_left h3 (show (0 : ℝ) ≤ 1 - 1 / 10 ^ 12 by norm_num)
    have h5 : ((1 : ℝ) - 1 / 10 ^ 12) * (1 - (1 - 1 / 10 ^ 12)⁻¹) = -(1 / 10 ^ 12) := by norm_num
    rw [h5] at h4
    linarith
  have h3 : Real.negMulLog (1 / 10 ^ 12) = 1 / 10 ^ 12 * (12 * Real.log 10) := by
    unfold Real.negMulLog
    rw [hlog]
    ring
  refine ⟨?_, ?_, e1⟩
  · rw [e0, h3]; positivity
  · rw [e0, h3]
    have : (1 : ℝ) / 10 ^ 12 * (12 * Real.log 10) ≤ 1 / 10 ^ 12 * (12 * 9) := by gcongr
    refine le_trans (add_le_add h2 this) ?_
    norm_num

/-- C52 fails for small entropy rates: the result is negative. -/
theorem C52_negative : exSticking.toReal.Valid ∧ Irreducible exSticking.toReal.p ∧
    ∃ r, entropyRate exSticking.toReal ([[0, 1]] : List (List (Fin 2))) = .ok (some r) ∧ r < 0 := by
  have hv : exSticking.toReal.Valid := toReal_valid (by decide +kernel)
  refine ⟨hv, exSticking_irreducible, ?_⟩
  obtain ⟨x, -, h2, h3, h4⟩ := C34_stationary hv exSticking_classes exSticking_irreducible
  obtain ⟨e1, e2, e3⟩ := exSticking_entropy
  have hr : rate exSticking.toReal x = x (0 : Fin 2) * entropy (exSticking.toReal.p (0 : Fin 2)) := by
    change ∑ i : Fin 2, x i * entropy (exSticking.toReal.p i) = _
    rw [Fin.sum_univ_two, e3, mul_zero, add_zero]
  have hx0 : 0 < x (0 : Fin 2) := h3 (0 : Fin 2)
  have hx1 : x (0 : Fin 2) ≤ 1 := by
    have := (Fin.sum_univ_two (f := (x : Fin 2 → ℝ))).symm.trans h2.1.2
    have h5 : 0 < x (1 : Fin 2) := h3 (1 : Fin 2)
    linarith
  refine ⟨_, entropyRate_run hv exSticking_classes h2 h4, ?_⟩
  have h6 : rate exSticking.toReal x ≤ 1 / 10 ^ 8 := by
    rw [hr]
    exact le_trans (mul_le_of_le_one_left e1.le hx1) e2
  rw [if_pos h6, hr, neg_lt_zero]
  exact mul_pos hx0 e1

/-- A chain of certain transitions. -/
def exFlip : MC ℚ := ⟨2, !![0, 1; 1, 0], ["a", "b"]⟩

/-- The hypotheses of `C52_entropy_rate_partial` can be met, and the result is then zero. -/
example : entropyRate exFlip.toReal ([[0, 1]] : List (List (Fin 2))) = .ok (some 0) := by
  have hv : exFlip.toReal.Valid := toReal_valid (by decide +kernel)
  have hcl : IsClasses exFlip.toReal.p ([[0, 1]] : List (List (Fin 2))) := by
    refine toReal_isClasses (c := exFlip) ?_
    change IsClasses (fun i j : Fin 2 => exFlip.p i j) [[0, 1]]
    decide +kernel
  have hirr : Irreducible exFlip.toReal.p := by
    refine toReal_irreducible (c := exFlip) ?_
    change Irreducible (fun i j : Fin 2 => exFlip.p i j)
    decide +kernel
  obtain ⟨x, -, h2, -, h4⟩ := C34_stationary hv hcl hirr
  refine (C52_zero hv hcl h2 h4).2 ?_
  have q0 : exFlip.p (0 : Fin 2) (1 : Fin 2) = 1 := by decide +kernel
  have q1 : exFlip.p (1 : Fin 2) (0 : Fin 2) = 1 := by decide +kernel
  have : ∀ i : Fin 2, ∃ j : Fin 2, exFlip.toReal.p i j = 1 := by
    intro i
    fin_cases i
    · refine ⟨1, ?_⟩
      change ((exFlip.p (0 : Fin 2) (1 : Fin 2) : ℚ) : ℝ) = _
      rw [q0]; norm_num
    · refine ⟨0, ?_⟩
      change ((exFlip.p (1 : Fin 2) (0 : Fin 2) : ℚ) : ℝ) = _
      rw [q1]; norm_num
  exact fun i _ => this i

end Verif
