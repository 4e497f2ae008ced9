import Mathlib.Analysis.Complex.ExponentialBounds
import Verif.Props.Assessments

/-!
# What the tests of stationarity and of homogeneity detect (C157, C158)
-/

set_option linter.unusedSectionVars false

namespace Verif

open Finset

variable {m n : ℕ}

/-! ## Stationarity -/

/-- The expected frequencies of a table whose rows are distributions. -/
theorem independent_rows {T : Fin m → Fin n → ℝ} (h1 : ∀ b, ∑ j, T b j = 1) (b : Fin m) (j : Fin n) :
    independent T b j = (∑ l, T l j) / m := by
  unfold independent
  rw [h1 b, Finset.sum_congr rfl fun r _ => h1 r, Finset.sum_const, Finset.card_univ, Fintype.card_fin,
    nsmul_eq_mul, one_mul, mul_one]

/-- Pearson's statistic of a table whose rows are distributions. -/
theorem pearson_rows {T : Fin m → Fin n → ℝ} (h0 : ∀ b j, 0 ≤ T b j) (h1 : ∀ b, ∑ j, T b j = 1)
    (hm : 0 < m) :
    pearson T = m * ∑ b, ∑ j, T b j ^ 2 / (∑ l, T l j) - m := by
  have hm' : (m : ℝ) ≠ 0 := by exact_mod_cast hm.ne'
  have hcell : ∀ b j, (T b j - independent T b j) ^ 2 / independent T b j =
      m * (T b j ^ 2 / (∑ l, T l j)) - 2 * T b j + (∑ l, T l j) / m := by
    intro b j
    rw [independent_rows h1]
    by_cases hc : ∑ l, T l j = 0
    · have : T b j = 0 := (Finset.sum_eq_zero_iff_of_nonneg fun l _ => h0 l j).mp hc b (Finset.mem_univ _)
      rw [hc, this]
      simp
    · field_simp
      ring
  unfold pearson
  rw [Finset.sum_congr rfl fun b _ => Finset.sum_congr rfl fun j _ => hcell b j]
  simp only [Finset.sum_add_distrib, Finset.sum_sub_distrib, ← Finset.mul_sum]
  have e1 : ∑ b, ∑ j, T b j = m := by
    rw [Finset.sum_congr rfl fun b _ => h1 b]
    simp
  have e2 : ∑ _b : Fin m, ∑ j, (∑ l, T l j) / (m : ℝ) = m := by
    rw [Finset.sum_const, Finset.card_univ, Fintype.card_fin, nsmul_eq_mul, ← Finset.sum_div,
      Finset.sum_comm, e1]
    field_simp
  rw [e1, e2]
  ring

/-- The statistic of such a table does not exceed the number of the rows times the number of the rows, or
of the columns, less one. -/
theorem pearson_rows_le {T : Fin m → Fin n → ℝ} (h0 : ∀ b j, 0 ≤ T b j) (h1 : ∀ b, ∑ j, T b j = 1)
    (hm : 0 < m) : pearson T ≤ m * (m - 1) ∧ pearson T ≤ m * (n - 1) := by
  have hm' : (0 : ℝ) < m := by exact_mod_cast hm
  have hle : ∀ b j, T b j ≤ ∑ l, T l j := fun b j =>
    Finset.single_le_sum (f := fun l => T l j) (fun l _ => h0 l j) (Finset.mem_univ b)
  have hle1 : ∀ b j, T b j ≤ 1 := fun b j =>
    (Finset.single_le_sum (f := fun l => T b l) (fun l _ => h0 b l) (Finset.mem_univ j)).trans (h1 b).le
  have hc0 : ∀ j, 0 ≤ ∑ l, T l j := fun j => Finset.sum_nonneg fun l _ => h0 l j
  rw [pearson_rows h0 h1 hm]
  constructor
  · have : ∑ b, ∑ j, T b j ^ 2 / (∑ l, T l j) ≤ m := by
      refine (Finset.sum_le_sum fun b _ => (Finset.sum_le_sum fun j _ => ?_).trans (h1 b).le).trans
        (by simp)
      rcases (hc0 j).eq_or_lt with h | h
      · rw [← h, div_zero]
        exact h0 b j
      · rw [div_le_iff₀ h, sq]
        exact mul_le_mul_of_nonneg_left (hle b j) (h0 b j)
    nlinarith
  · have : ∑ b, ∑ j, T b j ^ 2 / (∑ l, T l j) ≤ n := by
      rw [Finset.sum_comm]
      refine (Finset.sum_le_sum (g := fun _ => (1 : ℝ)) fun j _ => ?_).trans (by simp)
      rw [← Finset.sum_div]
      rcases (hc0 j).eq_or_lt with h | h
      · rw [← h, div_zero]
        norm_num
      · rw [div_le_one h]
        refine Finset.sum_le_sum fun b _ => ?_
        rw [sq]
        exact mul_le_of_le_one_left (h0 b j) (hle1 b j)
    nlinarith

/-- The corrected statistic of a table of two rows, which are distributions, is zero. -/
theorem yates_rows {T : Fin 2 → Fin n → ℝ} (h0 : ∀ b j, 0 ≤ T b j) (h1 : ∀ b, ∑ j, T b j = 1) :
    yates T = 0 := by
  have hle1 : ∀ b j, T b j ≤ 1 := fun b j =>
    (Finset.single_le_sum (f := fun l => T b l) (fun l _ => h0 b l) (Finset.mem_univ j)).trans (h1 b).le
  unfold yates
  refine Finset.sum_eq_zero fun b _ => Finset.sum_eq_zero fun j _ => ?_
  have : |T b j - independent T b j| ≤ 1 / 2 := by
    rw [independent_rows h1, Fin.sum_univ_two, abs_le]
    have a0 := h0 0 j
    have a1 := h0 1 j
    have b0 := hle1 0 j
    have b1 := hle1 1 j
    fin_cases b <;> constructor <;> norm_num <;> linarith
  rw [max_eq_left (by linarith)]
  simp

theorem yates_le_pearson {T : Fin m → Fin n → ℝ} (h0 : ∀ b j, 0 ≤ T b j) : yates T ≤ pearson T := by
  unfold yates pearson
  refine Finset.sum_le_sum fun b _ => Finset.sum_le_sum fun j _ => ?_
  refine div_le_div_of_nonneg_right ?_ (independent_nonneg h0 b j)
  rw [sq_le_sq, abs_of_nonneg (le_max_left _ _)]
  exact max_le (abs_nonneg _) (by linarith [abs_nonneg (T b j - independent T b j)])

theorem blockStatistic_le (hm : 2 ≤ m) (seq : List (Fin n)) (s : Fin n) :
    blockStatistic m seq s ≤ m * (m - 1) ∧ blockStatistic m seq s ≤ m * (n - 1) := by
  have h0 : ∀ b j, 0 ≤ blockFrequency m seq s b j := fun b => (blockFrequency_dist seq s b).1
  have h1 : ∀ b, ∑ j, blockFrequency m seq s b j = 1 := fun b => (blockFrequency_dist seq s b).2
  obtain ⟨k1, k2⟩ := pearson_rows_le h0 h1 (by omega)
  unfold blockStatistic tableStatistic
  rw [if_neg (by omega)]
  split_ifs
  · exact ⟨(yates_le_pearson h0).trans k1, (yates_le_pearson h0).trans k2⟩
  · exact ⟨k1, k2⟩

/-- However long the sequence is, the statistic is at most the product of the number of the states, the
number of the blocks, and the lower of these two numbers less one. -/
theorem C157_bounded {cdf : Flt ℝ → ℤ → Flt ℝ}
    {possibleStates sequence blocks significance : PyVal ℝ} {r : TestResult}
    (h : assessStationarity cdf possibleStates sequence blocks significance = .ok r) :
    ∃ (labels : List String) (m : ℕ),
      validateLabelsInput possibleStates none = .ok labels ∧ blocks = .int m ∧
      (2 ≤ m → r = .undefined ∨ ∃ x : ℝ, r.chi2 = .fin x ∧ 0 ≤ x ∧
        r.dof = some ((labels.length : ℤ) * (labels.length - 1) * (m - 1)) ∧
        x ≤ labels.length * (m * (m - 1)) ∧ x ≤ labels.length * (m * (labels.length - 1))) := by
  obtain ⟨labels, seq, m, sig, h2, hm, hl, hs, hb, hsig, k1, k2⟩ := assessStationarity_spec h
  refine ⟨labels, m, hl, hb, fun hm2 => ?_⟩
  by_cases hc : BlocksNull m seq
  · exact Or.inl (k1 hc)
  · refine Or.inr ⟨∑ s, blockStatistic m seq s, ?_, ?_, ?_, ?_, ?_⟩
    · rw [k2 hc]
      rfl
    · exact Finset.sum_nonneg fun s _ => blockStatistic_nonneg m seq s
    · rw [k2 hc]
      rfl
    · refine (Finset.sum_le_sum fun s _ => (blockStatistic_le hm2 seq s).1).trans ?_
      simp
    · refine (Finset.sum_le_sum fun s _ => (blockStatistic_le hm2 seq s).2).trans ?_
      simp

/-- With two states and two blocks the statistic is zero for every sequence, which is not rejected. -/
theorem C157_two_blocks_two_states {cdf : Flt ℝ → ℤ → Flt ℝ}
    (hcdf : ∀ d, 0 < d → cdf (.fin 0) d = .fin 0)
    {possibleStates sequence significance : PyVal ℝ} {labels : List String} {r : TestResult}
    (hl : validateLabelsInput possibleStates none = .ok labels) (h2 : labels.length = 2)
    (h : assessStationarity cdf possibleStates sequence (.int 2) significance = .ok r) :
    r = .undefined ∨ r.chi2 = .fin 0 ∧ r.pValue = .fin 1 ∧ r.rejection = some false := by
  obtain ⟨labels', seq, m, sig, -, hm, hl', hs, hb, hsig, k1, k2⟩ := assessStationarity_spec h
  obtain rfl := Except.ok.inj (hl.symm.trans hl')
  obtain rfl : m = 2 := by
    have : (2 : ℤ) = m := by injection hb
    omega
  by_cases hc : BlocksNull 2 seq
  · exact Or.inl (k1 hc)
  · right
    have hzero : ∀ s, blockStatistic 2 seq s = 0 := by
      intro s
      unfold blockStatistic tableStatistic
      rw [if_neg (by omega), if_pos ⟨rfl, h2⟩]
      exact yates_rows (fun b => (blockFrequency_dist seq s b).1) fun b => (blockFrequency_dist seq s b).2
    have hd : (0 : ℤ) < (labels.length : ℤ) * (labels.length - 1) * ((2 : ℕ) - 1) := by
      rw [h2]
      norm_num
    rw [k2 hc, Finset.sum_eq_zero fun s _ => hzero s, concludeNull_of_ne hd.ne']
    have : sig ≤ 1 / 5 := ((C03_float_limits _ _ _ _).mp hsig).2.2.2.2 (1 / 5) rfl
    unfold conclude
    rw [hcdf _ hd]
    refine ⟨rfl, by simp [oneMinus], ?_⟩
    simp only [oneMinus, belowThreshold, Option.some.injEq, decide_eq_false_iff_not, not_lt]
    linarith

/-- With fewer blocks than states no sequence is rejected: the statistic is at most the number of the
degrees of freedom. The chi-square distribution gives to the values up to its mean the probability
`7 / 10` at most, which is assumed of `cdf`. -/
theorem C157_fewer_blocks_than_states {cdf : Flt ℝ → ℤ → Flt ℝ}
    (hcdf : ∀ d : ℤ, 0 < d → ∀ x : ℝ, 0 ≤ x → x ≤ d → ∃ y : ℝ, y ≤ 7 / 10 ∧ cdf (.fin x) d = .fin y)
    {possibleStates sequence significance : PyVal ℝ} {labels : List String} {m : ℕ} {r : TestResult}
    (hl : validateLabelsInput possibleStates none = .ok labels) (hm : 2 ≤ m) (hn : m < labels.length)
    (h : assessStationarity cdf possibleStates sequence (.int m) significance = .ok r) :
    r = .undefined ∨ r.rejection = some false := by
  obtain ⟨labels', seq, m', sig, -, -, hl', hs, hb, hsig, k1, k2⟩ := assessStationarity_spec h
  obtain rfl := Except.ok.inj (hl.symm.trans hl')
  obtain rfl : m = m' := by
    have : (m : ℤ) = m' := by injection hb
    exact_mod_cast this
  by_cases hc : BlocksNull m seq
  · exact Or.inl (k1 hc)
  · right
    have hx0 : 0 ≤ ∑ s, blockStatistic m seq s := Finset.sum_nonneg fun s _ => blockStatistic_nonneg m seq s
    have hx1 : ∑ s, blockStatistic m seq s ≤ labels.length * (m * (m - 1)) := by
      refine (Finset.sum_le_sum fun s _ => (blockStatistic_le hm seq s).1).trans ?_
      simp
    have hm' : (2 : ℝ) ≤ m := by exact_mod_cast hm
    have hn' : (m : ℝ) + 1 ≤ labels.length := by exact_mod_cast hn
    have hd : (0 : ℤ) < (labels.length : ℤ) * (labels.length - 1) * (m - 1) := by
      have a : (2 : ℤ) ≤ m := by exact_mod_cast hm
      have b : (m : ℤ) + 1 ≤ labels.length := by exact_mod_cast hn
      exact mul_pos (mul_pos (by linarith) (by linarith)) (by linarith)
    have hx2 : ∑ s, blockStatistic m seq s ≤
        (((labels.length : ℤ) * (labels.length - 1) * (m - 1) : ℤ) : ℝ) := by
      refine hx1.trans ?_
      push_cast
      rw [mul_assoc]
      refine mul_le_mul_of_nonneg_left ?_ (by linarith)
      exact mul_le_mul_of_nonneg_right (by linarith) (by linarith)
    obtain ⟨y, hy, hy'⟩ := hcdf _ hd _ hx0 hx2
    rw [k2 hc, concludeNull_of_ne hd.ne']
    have : sig ≤ 1 / 5 := ((C03_float_limits _ _ _ _).mp hsig).2.2.2.2 (1 / 5) rfl
    unfold conclude
    rw [hy']
    simp only [oneMinus, belowThreshold, Option.some.injEq, decide_eq_false_iff_not, not_lt]
    linarith

/-- Except with two states and two blocks, the statistic is zero only if the transitions have the same
frequencies in all blocks. -/
theorem C157_zero_partial {cdf : Flt ℝ → ℤ → Flt ℝ}
    {possibleStates sequence blocks significance : PyVal ℝ} {r : TestResult}
    (h : assessStationarity cdf possibleStates sequence blocks significance = .ok r) :
    ∃ (labels : List String) (seq : List (Fin labels.length)) (m : ℕ),
      validateLabelsInput possibleStates none = .ok labels ∧
      validateSequence sequence labels = .ok (seq.map Fin.val) ∧ blocks = .int m ∧
      (2 ≤ m → ¬ (m = 2 ∧ labels.length = 2) → ¬ BlocksNull m seq → r.chi2 = .fin 0 →
        ∀ s (b b' : Fin m) j, blockFrequency m seq s b j = blockFrequency m seq s b' j) := by
  obtain ⟨labels, seq, m, sig, h2, hm, hl, hs, hb, hsig, k1, k2⟩ := assessStationarity_spec h
  refine ⟨labels, seq, m, hl, hs, hb, fun hm2 h22 hc hr s b b' j => ?_⟩
  rw [k2 hc] at hr
  have hx : ∑ s, blockStatistic m seq s = 0 := by injection hr
  have hs0 : blockStatistic m seq s = 0 :=
    (Finset.sum_eq_zero_iff_of_nonneg fun s _ => blockStatistic_nonneg m seq s).mp hx s (Finset.mem_univ _)
  have h0 : ∀ b j, 0 ≤ blockFrequency m seq s b j := fun b => (blockFrequency_dist seq s b).1
  have h1 : ∀ b, ∑ j, blockFrequency m seq s b j = 1 := fun b => (blockFrequency_dist seq s b).2
  unfold blockStatistic tableStatistic at hs0
  rw [if_neg (by omega), if_neg h22] at hs0
  unfold pearson at hs0
  have hm' : (0 : ℝ) < m := by exact_mod_cast hm
  have hcol : 0 < ∑ l, blockFrequency m seq s l j := by
    refine (Finset.sum_nonneg fun l _ => h0 l j).lt_of_ne fun he => ?_
    refine hc ⟨by omega, s, j, fun b => ?_⟩
    exact (Finset.sum_eq_zero_iff_of_nonneg fun l _ => h0 l j).mp he.symm b (Finset.mem_univ _)
  have key : ∀ b, blockFrequency m seq s b j = (∑ l, blockFrequency m seq s l j) / m := by
    intro b
    have n1 : ∀ b, ∀ j, 0 ≤ (blockFrequency m seq s b j - independent (blockFrequency m seq s) b j) ^ 2 /
        independent (blockFrequency m seq s) b j := fun b j =>
      div_nonneg (sq_nonneg _) (independent_nonneg h0 b j)
    have e1 := (Finset.sum_eq_zero_iff_of_nonneg fun b _ => Finset.sum_nonneg fun j _ => n1 b j).mp hs0 b
      (Finset.mem_univ _)
    have e2 := (Finset.sum_eq_zero_iff_of_nonneg fun j _ => n1 b j).mp e1 j (Finset.mem_univ _)
    rw [independent_rows h1] at e2
    rcases div_eq_zero_iff.mp e2 with e | e
    · linarith [pow_eq_zero_iff (two_ne_zero) |>.mp e]
    · exact absurd e (div_pos hcol hm').ne'
  rw [key b, key b']

/-- A sequence whose first block alternates and whose second block stays: the statistic is zero. -/
theorem C157_changing_sequence {cdf : Flt ℝ → ℤ → Flt ℝ} (hcdf : ∀ d, 0 < d → cdf (.fin 0) d = .fin 0) :
    ∃ r : TestResult,
      assessStationarity cdf (.list [.str "a", .str "b"])
        (.list [.int 0, .int 1, .int 0, .int 1, .int 0, .int 1, .int 1, .int 1, .int 1, .int 0, .int 0, .int 0])
        (.int 2) (.float (.fin (1 / 20))) = .ok r ∧
      r.chi2 = .fin 0 ∧ r.pValue = .fin 1 ∧ r.rejection = some false ∧
      (∀ j, blockCount 2 ([0, 1, 0, 1, 0, 1, 1, 1, 1, 0, 0, 0] : List (Fin 2)) 0 0 j = if j = 1 then 3 else 0) ∧
      (∀ j, blockCount 2 ([0, 1, 0, 1, 0, 1, 1, 1, 1, 0, 0, 0] : List (Fin 2)) 0 1 j = if j = 0 then 2 else 0) := by
  have l1 : validateLabelsInput (.list [.str "a", .str "b"] : PyVal ℝ) none = .ok ["a", "b"] := rfl
  have s1 : validateSequence (.list [.int 0, .int 1, .int 0, .int 1, .int 0, .int 1, .int 1, .int 1, .int 1,
    .int 0, .int 0, .int 0] : PyVal ℝ) ["a", "b"] = .ok [0, 1, 0, 1, 0, 1, 1, 1, 1, 0, 0, 0] := rfl
  have b1 : validateInteger (.int 2 : PyVal ℝ) (some (1, false)) none = .ok 2 := rfl
  obtain ⟨r, hr⟩ : ∃ r, assessStationarity cdf (.list [.str "a", .str "b"])
      (.list [.int 0, .int 1, .int 0, .int 1, .int 0, .int 1, .int 1, .int 1, .int 1, .int 0, .int 0, .int 0])
      (.int 2) (.float (.fin (1 / 20))) = .ok r := by
    unfold assessStationarity
    rw [l1, R.ok_bind, s1, R.ok_bind, b1, R.ok_bind, exSignificance, R.ok_bind]
    exact ⟨_, rfl⟩
  have c0 : ∀ j : Fin 2, blockCount 2 ([0, 1, 0, 1, 0, 1, 1, 1, 1, 0, 0, 0] : List (Fin 2)) 0 0 j =
    if j = 1 then 3 else 0 := by decide +kernel
  have c1 : ∀ j : Fin 2, blockCount 2 ([0, 1, 0, 1, 0, 1, 1, 1, 1, 0, 0, 0] : List (Fin 2)) 0 1 j =
    if j = 0 then 2 else 0 := by decide +kernel
  have hpos : ∀ s j : Fin 2, ∃ b : Fin 2,
    blockCount 2 ([0, 1, 0, 1, 0, 1, 1, 1, 1, 0, 0, 0] : List (Fin 2)) s b j ≠ 0 := by decide +kernel
  rcases C157_two_blocks_two_states hcdf l1 rfl hr with hu | ⟨k1, k2, k3⟩
  · exfalso
    obtain ⟨labels, seq, m, sig, -, -, hl, hs, hb, -, -, k⟩ := assessStationarity_spec hr
    obtain rfl := Except.ok.inj (l1.symm.trans hl)
    obtain rfl : m = 2 := by
      have : (2 : ℤ) = m := by injection hb
      omega
    have hseq : seq = ([0, 1, 0, 1, 0, 1, 1, 1, 1, 0, 0, 0] : List (Fin 2)) := by
      rw [s1] at hs
      have : seq.map Fin.val = ([0, 1, 0, 1, 0, 1, 1, 1, 1, 0, 0, 0] : List (Fin 2)).map Fin.val :=
        (Except.ok.inj hs).symm
      exact List.map_injective_iff.mpr Fin.val_injective this
    subst hseq
    refine absurd (k ?_) ?_
    · rintro ⟨-, s, j, hz⟩
      obtain ⟨b, hb⟩ := hpos s j
      have := hz b
      unfold blockFrequency at this
      have hsum : ∑ l : Fin 2, blockCount 2 ([0, 1, 0, 1, 0, 1, 1, 1, 1, 0, 0, 0] : List (Fin 2)) s b l ≠ 0 :=
        fun h0 => hb (Finset.sum_eq_zero_iff.mp h0 j (Finset.mem_univ _))
      erw [if_neg hsum] at this
      rcases div_eq_zero_iff.mp this with e | e
      · exact hb (by exact_mod_cast e)
      · exact hsum (by exact_mod_cast e)
    · rw [hu]
      intro he
      have := congrArg TestResult.dof he
      cases this
  · exact ⟨r, hr, k1, k2, k3, c0, c1⟩

/-- A function with the properties that are assumed of the distribution function. -/
example : (∀ d : ℤ, 0 < d → exCdf (.fin 0) d = .fin 0) ∧
    ∃ cdf : Flt ℝ → ℤ → Flt ℝ, ∀ d : ℤ, 0 < d → ∀ x : ℝ, 0 ≤ x → x ≤ d →
      ∃ y : ℝ, y ≤ 7 / 10 ∧ cdf (.fin x) d = .fin y := by
  refine ⟨fun d _ => by simp [exCdf], fun x d => match x with
    | .fin x => .fin (x / (x + d))
    | .nan => .nan
    | .inf _ => .fin 1, fun d hd x hx hxd => ⟨x / (x + d), ?_, rfl⟩⟩
  have : (0 : ℝ) < d := by exact_mod_cast hd
  rw [div_le_iff₀ (by linarith)]
  linarith

/-! ## Homogeneity -/

/-- The likelihood ratio statistic for the hypothesis that the sequences have the same transition
probabilities. -/
noncomputable def conditionalStatistic {n : ℕ} (seqs : List (List (Fin n))) : ℝ :=
  2 * (seqs.map fun s => ∑ i, ∑ j, (transitionCount s i j : ℝ) *
    Real.log ((transitionCount s i j / (∑ l, transitionCount s i l : ℕ)) /
      (pooledTransitions seqs i j / (∑ l, pooledTransitions seqs i l : ℕ)))).sum

/-- The likelihood ratio statistic for the hypothesis that the sequences leave every state equally
often. -/
noncomputable def occupancyStatistic {n : ℕ} (seqs : List (List (Fin n))) : ℝ :=
  2 * (seqs.map fun s => ∑ i, ((∑ l, transitionCount s i l : ℕ) : ℝ) *
    Real.log (((∑ l, transitionCount s i l : ℕ) / (∑ r, ∑ l, transitionCount s r l : ℕ)) /
      ((∑ l, pooledTransitions seqs i l : ℕ) / (∑ r, ∑ l, pooledTransitions seqs r l : ℕ)))).sum

theorem conditionalStatistic_nonneg (seqs : List (List (Fin n))) : 0 ≤ conditionalStatistic seqs := by
  unfold conditionalStatistic
  refine mul_nonneg (by norm_num) (List.sum_nonneg ?_)
  intro x hx
  obtain ⟨s, hs, rfl⟩ := List.mem_map.mp hx
  refine Finset.sum_nonneg fun i _ => ?_
  rcases Nat.eq_zero_or_pos (∑ l, transitionCount s i l) with h0 | h0
  · refine (Finset.sum_eq_zero fun j _ => ?_).ge
    rw [Finset.sum_eq_zero_iff.mp h0 j (Finset.mem_univ _)]
    simp
  · have hN : 0 < ∑ l, pooledTransitions seqs i l :=
      lt_of_lt_of_le h0 (Finset.sum_le_sum fun l _ => transitionCount_le_pooled hs i l)
    have hN' : (0 : ℝ) < (∑ l, pooledTransitions seqs i l : ℕ) := by exact_mod_cast hN
    have := gibbs (c := fun j => (transitionCount s i j : ℝ))
      (q := fun j => (pooledTransitions seqs i j : ℝ) / (∑ l, pooledTransitions seqs i l : ℕ))
      (fun j => Nat.cast_nonneg _) (by exact_mod_cast h0) (fun j => by positivity) ?_ ?_
    · push_cast at this ⊢
      exact this
    · rw [← Finset.sum_div, div_le_one hN']
      push_cast
      exact le_rfl
    · intro j hj
      have : 0 < pooledTransitions seqs i j :=
        lt_of_lt_of_le (by exact_mod_cast hj) (transitionCount_le_pooled hs _ _)
      exact div_pos (by exact_mod_cast this) hN'

theorem occupancyStatistic_nonneg (seqs : List (List (Fin n))) : 0 ≤ occupancyStatistic seqs := by
  unfold occupancyStatistic
  refine mul_nonneg (by norm_num) (List.sum_nonneg ?_)
  intro x hx
  obtain ⟨s, hs, rfl⟩ := List.mem_map.mp hx
  have hrow : ∀ i, ∑ l, transitionCount s i l ≤ ∑ l, pooledTransitions seqs i l := fun i =>
    Finset.sum_le_sum fun l _ => transitionCount_le_pooled hs i l
  rcases Nat.eq_zero_or_pos (∑ r, ∑ l, transitionCount s r l) with h0 | h0
  · refine (Finset.sum_eq_zero fun i _ => ?_).ge
    rw [Finset.sum_eq_zero_iff.mp h0 i (Finset.mem_univ _)]
    simp
  · have hN : 0 < ∑ r, ∑ l, pooledTransitions seqs r l :=
      lt_of_lt_of_le h0 (Finset.sum_le_sum fun r _ => hrow r)
    have hN' : (0 : ℝ) < (∑ r, ∑ l, pooledTransitions seqs r l : ℕ) := by exact_mod_cast hN
    have := gibbs (c := fun i => ((∑ l, transitionCount s i l : ℕ) : ℝ))
      (q := fun i => ((∑ l, pooledTransitions seqs i l : ℕ) : ℝ) /
        (∑ r, ∑ l, pooledTransitions seqs r l : ℕ))
      (fun j => Nat.cast_nonneg _) (by exact_mod_cast h0) (fun j => by positivity) ?_ ?_
    · push_cast at this ⊢
      exact this
    · rw [← Finset.sum_div, div_le_one hN']
      push_cast
      exact le_rfl
    · intro i hi
      have : 0 < ∑ l, pooledTransitions seqs i l := lt_of_lt_of_le (by exact_mod_cast hi) (hrow i)
      exact div_pos (by exact_mod_cast this) hN'

/-- The statistic of the test is the sum of the two statistics. -/
theorem homogeneityStatistic_eq (seqs : List (List (Fin n))) :
    homogeneityStatistic seqs = conditionalStatistic seqs + occupancyStatistic seqs := by
  unfold homogeneityStatistic conditionalStatistic occupancyStatistic
  rw [← mul_add, ← List.sum_map_add]
  refine congrArg (2 * ·) (congrArg List.sum (List.map_congr_left fun s hs => ?_))
  rw [← Finset.sum_add_distrib]
  refine Finset.sum_congr rfl fun i _ => ?_
  have hsplit : ((∑ l, transitionCount s i l : ℕ) : ℝ) *
      Real.log (((∑ l, transitionCount s i l : ℕ) / (∑ r, ∑ l, transitionCount s r l : ℕ)) /
        ((∑ l, pooledTransitions seqs i l : ℕ) / (∑ r, ∑ l, pooledTransitions seqs r l : ℕ))) =
      ∑ j, (transitionCount s i j : ℝ) *
        Real.log (((∑ l, transitionCount s i l : ℕ) / (∑ r, ∑ l, transitionCount s r l : ℕ)) /
          ((∑ l, pooledTransitions seqs i l : ℕ) / (∑ r, ∑ l, pooledTransitions seqs r l : ℕ))) := by
    rw [← Finset.sum_mul, ← Nat.cast_sum]
  rw [hsplit, ← Finset.sum_add_distrib]
  refine Finset.sum_congr rfl fun j _ => ?_
  rw [← mul_add]
  rcases Nat.eq_zero_or_pos (transitionCount s i j) with h0 | h0
  · rw [h0]
    simp
  · have a1 : 0 < ∑ l, transitionCount s i l :=
      lt_of_lt_of_le h0 (Finset.single_le_sum (f := fun l => transitionCount s i l)
        (fun _ _ => Nat.zero_le _) (Finset.mem_univ j))
    have a2 : 0 < ∑ r, ∑ l, transitionCount s r l :=
      lt_of_lt_of_le a1 (Finset.single_le_sum (f := fun r => ∑ l, transitionCount s r l)
        (fun _ _ => Nat.zero_le _) (Finset.mem_univ i))
    have b0 : 0 < pooledTransitions seqs i j := lt_of_lt_of_le h0 (transitionCount_le_pooled hs i j)
    have b1 : 0 < ∑ l, pooledTransitions seqs i l :=
      lt_of_lt_of_le b0 (Finset.single_le_sum (f := fun l => pooledTransitions seqs i l)
        (fun _ _ => Nat.zero_le _) (Finset.mem_univ j))
    have b2 : 0 < ∑ r, ∑ l, pooledTransitions seqs r l :=
      lt_of_lt_of_le b1 (Finset.single_le_sum (f := fun r => ∑ l, pooledTransitions seqs r l)
        (fun _ _ => Nat.zero_le _) (Finset.mem_univ i))
    obtain ⟨x, hx⟩ : ∃ x : ℝ, x = (transitionCount s i j : ℝ) := ⟨_, rfl⟩
    obtain ⟨x1, hx1⟩ : ∃ x : ℝ, x = (∑ l, transitionCount s i l : ℕ) := ⟨_, rfl⟩
    obtain ⟨x2, hx2⟩ : ∃ x : ℝ, x = (∑ r, ∑ l, transitionCount s r l : ℕ) := ⟨_, rfl⟩
    obtain ⟨y, hy⟩ : ∃ x : ℝ, x = (pooledTransitions seqs i j : ℝ) := ⟨_, rfl⟩
    obtain ⟨y1, hy1⟩ : ∃ x : ℝ, x = (∑ l, pooledTransitions seqs i l : ℕ) := ⟨_, rfl⟩
    obtain ⟨y2, hy2⟩ : ∃ x : ℝ, x = (∑ r, ∑ l, pooledTransitions seqs r l : ℕ) := ⟨_, rfl⟩
    rw [← hx, ← hx1, ← hx2, ← hy, ← hy1, ← hy2]
    have px : 0 < x := by rw [hx]; exact_mod_cast h0
    have px1 : 0 < x1 := by rw [hx1]; exact_mod_cast a1
    have px2 : 0 < x2 := by rw [hx2]; exact_mod_cast a2
    have py : 0 < y := by rw [hy]; exact_mod_cast b0
    have py1 : 0 < y1 := by rw [hy1]; exact_mod_cast b1
    have py2 : 0 < y2 := by rw [hy2]; exact_mod_cast b2
    rw [← Real.log_mul (by positivity) (by positivity)]
    congr 2
    field_simp

/-- The statistic of `assess_homogeneity` adds to the statistic of the transition probabilities one that
compares how often the sequences leave every state; neither is negative. -/
theorem C158_decomposition {cdf : Flt ℝ → ℤ → Flt ℝ} (hcdf : IsChi2Cdf cdf)
    {possibleStates sequences significance : PyVal ℝ} {r : TestResult}
    (h : assessHomogeneity cdf possibleStates sequences significance = .ok r) :
    ∃ (labels : List String) (seqs : List (List (Fin labels.length))),
      validateLabelsInput possibleStates none = .ok labels ∧
      validateSequencesList sequences labels = .ok (seqs.map (List.map Fin.val)) ∧
      0 ≤ conditionalStatistic seqs ∧ 0 ≤ occupancyStatistic seqs ∧
      (Overlapping seqs → r.chi2 = .fin (conditionalStatistic seqs + occupancyStatistic seqs) ∧
        r.dof = some ((labels.length : ℤ) * (labels.length - 1) * (seqs.length - 1))) := by
  obtain ⟨labels, seqs, sig, hl, hs, -, -, -, k⟩ := C61_homogeneity hcdf h
  refine ⟨labels, seqs, hl, hs, conditionalStatistic_nonneg seqs, occupancyStatistic_nonneg seqs,
    fun ho => ?_⟩
  obtain ⟨-, p, -, -, -, -, -, hx, hd, -⟩ := k ho
  rw [hx, homogeneityStatistic_eq]
  exact ⟨rfl, hd⟩

/-- If every sequence leaves every state as often, in proportion, as all sequences do, then the statistic
is that of the transition probabilities. -/
theorem C158_equal_shares_partial {cdf : Flt ℝ → ℤ → Flt ℝ} (hcdf : IsChi2Cdf cdf)
    {possibleStates sequences significance : PyVal ℝ} {r : TestResult}
    (h : assessHomogeneity cdf possibleStates sequences significance = .ok r) :
    ∃ (labels : List String) (seqs : List (List (Fin labels.length))),
      validateLabelsInput possibleStates none = .ok labels ∧
      validateSequencesList sequences labels = .ok (seqs.map (List.map Fin.val)) ∧
      (Overlapping seqs → (∀ s ∈ seqs, ∀ i,
          (∑ l, transitionCount s i l) * (∑ r, ∑ l, pooledTransitions seqs r l) =
            (∑ l, pooledTransitions seqs i l) * ∑ r, ∑ l, transitionCount s r l) →
        r.chi2 = .fin (conditionalStatistic seqs)) := by
  obtain ⟨labels, seqs, hl, hs, -, -, k⟩ := C158_decomposition hcdf h
  refine ⟨labels, seqs, hl, hs, fun ho he => ?_⟩
  rw [(k ho).1]
  have : occupancyStatistic seqs = 0 := by
    unfold occupancyStatistic
    refine mul_eq_zero_of_right _ (List.sum_eq_zero fun x hx => ?_)
    obtain ⟨s, hs, rfl⟩ := List.mem_map.mp hx
    refine Finset.sum_eq_zero fun i _ => ?_
    rcases Nat.eq_zero_or_pos (∑ l, transitionCount s i l) with h0 | h0
    · rw [h0]
      simp
    · have a2 : 0 < ∑ r, ∑ l, transitionCount s r l :=
        lt_of_lt_of_le h0 (Finset.single_le_sum (f := fun r => ∑ l, transitionCount s r l)
          (fun _ _ => Nat.zero_le _) (Finset.mem_univ i))
      have b1 : 0 < ∑ l, pooledTransitions seqs i l :=
        lt_of_lt_of_le h0 (Finset.sum_le_sum fun l _ => transitionCount_le_pooled hs i l)
      have b2 : 0 < ∑ r, ∑ l, pooledTransitions seqs r l :=
        lt_of_lt_of_le b1 (Finset.single_le_sum (f := fun r => ∑ l, pooledTransitions seqs r l)
          (fun _ _ => Nat.zero_le _) (Finset.mem_univ i))
      have e : ((∑ l, transitionCount s i l : ℕ) : ℝ) * (∑ r, ∑ l, pooledTransitions seqs r l : ℕ) =
          (∑ l, pooledTransitions seqs i l : ℕ) * (∑ r, ∑ l, transitionCount s r l : ℕ) := by
        exact_mod_cast he s hs i
      have c2 : ((∑ r, ∑ l, transitionCount s r l : ℕ) : ℝ) ≠ 0 := by exact_mod_cast a2.ne'
      have d1 : ((∑ l, pooledTransitions seqs i l : ℕ) : ℝ) ≠ 0 := by exact_mod_cast b1.ne'
      have d2 : ((∑ r, ∑ l, pooledTransitions seqs r l : ℕ) : ℝ) ≠ 0 := by exact_mod_cast b2.ne'
      have : ((∑ l, transitionCount s i l : ℕ) / (∑ r, ∑ l, transitionCount s r l : ℕ) : ℝ) /
          ((∑ l, pooledTransitions seqs i l : ℕ) / (∑ r, ∑ l, pooledTransitions seqs r l : ℕ)) = 1 := by
        rw [div_div_div_eq, div_eq_one_iff_eq (mul_ne_zero c2 d1), e, mul_comm]
      rw [this, Real.log_one, mul_zero]
  rw [this, add_zero]

/-- Two sequences that leave the state `c` once, the first for `a` and the second for `b`, and stay. -/
def exAbsorbed : List (List (Fin 3)) :=
  [[2, 0, 0, 0, 0, 0, 0, 0, 0, 0, 0, 0], [2, 1, 1, 1, 1, 1, 1, 1, 1, 1, 1, 1]]

/-- A chain that follows each of the two sequences with probability `1 / 2`. -/
noncomputable def absorbP : Matrix (Fin 3) (Fin 3) ℝ := !![1, 0, 0; 0, 1, 0; 1 / 2, 1 / 2, 0]

theorem exAbsorbed_first : ∀ i j, transitionCount ([2, 0, 0, 0, 0, 0, 0, 0, 0, 0, 0, 0] : List (Fin 3)) i j =
    (![![10, 0, 0], ![0, 0, 0], ![1, 0, 0]] : Fin 3 → Fin 3 → ℕ) i j := by decide +kernel

theorem exAbsorbed_second : ∀ i j, transitionCount ([2, 1, 1, 1, 1, 1, 1, 1, 1, 1, 1, 1] : List (Fin 3)) i j =
    (![![0, 0, 0], ![0, 10, 0], ![0, 1, 0]] : Fin 3 → Fin 3 → ℕ) i j := by decide +kernel

theorem exAbsorbed_pooled : ∀ i j, pooledTransitions exAbsorbed i j =
    (![![10, 0, 0], ![0, 10, 0], ![1, 1, 0]] : Fin 3 → Fin 3 → ℕ) i j := by decide +kernel

theorem exAbsorbed_homogeneity : homogeneityStatistic exAbsorbed = 44 * Real.log 2 := by
  unfold homogeneityStatistic
  simp only [exAbsorbed_pooled]
  simp only [exAbsorbed, List.map_cons, List.map_nil, exAbsorbed_first, exAbsorbed_second,
    Fin.sum_univ_three]
  simp
  norm_num
  ring

theorem exAbsorbed_conditional : conditionalStatistic exAbsorbed = 4 * Real.log 2 := by
  unfold conditionalStatistic
  simp only [exAbsorbed_pooled]
  simp only [exAbsorbed, List.map_cons, List.map_nil, exAbsorbed_first, exAbsorbed_second,
    Fin.sum_univ_three]
  simp
  ring

/-- Two sequences that one chain follows with probability `1 / 2` each are rejected, although their
transition probabilities do not differ significantly. The distribution function with six degrees of
freedom is given. -/
theorem C158_false_rejection {cdf : Flt ℝ → ℤ → Flt ℝ} (hcdf : IsChi2Cdf cdf)
    (h6 : ∀ x : ℝ, 0 ≤ x → cdf (.fin x) 6 = .fin (1 - Real.exp (-x / 2) * (1 + x / 2 + x ^ 2 / 8))) :
    ∃ r : TestResult,
      assessHomogeneity cdf (.list [.str "a", .str "b", .str "c"])
        (.list [.list [.str "c", .str "a", .str "a", .str "a", .str "a", .str "a", .str "a", .str "a",
            .str "a", .str "a", .str "a", .str "a"],
          .list [.str "c", .str "b", .str "b", .str "b", .str "b", .str "b", .str "b", .str "b",
            .str "b", .str "b", .str "b", .str "b"]])
        (.float (.fin (1 / 20))) = .ok r ∧
      r.chi2 = .fin (44 * Real.log 2) ∧ r.dof = some 6 ∧ r.rejection = some true ∧
      IsStochastic absorbP ∧ (∀ s ∈ exAbsorbed, walkProb absorbP s = 1 / 2) ∧
      conditionalStatistic exAbsorbed = 4 * Real.log 2 ∧
      ∃ y : ℝ, cdf (.fin (conditionalStatistic exAbsorbed)) 6 = .fin y ∧ 4 / 5 < 1 - y := by
  have l1 : validateLabelsInput (.list [.str "a", .str "b", .str "c"] : PyVal ℝ) none =
    .ok ["a", "b", "c"] := rfl
  obtain ⟨v, hv⟩ : ∃ v : PyVal ℝ, v = .list [.list [.str "c", .str "a", .str "a", .str "a", .str "a",
      .str "a", .str "a", .str "a", .str "a", .str "a", .str "a", .str "a"],
    .list [.str "c", .str "b", .str "b", .str "b", .str "b", .str "b", .str "b", .str "b",
      .str "b", .str "b", .str "b", .str "b"]] := ⟨_, rfl⟩
  have s1 : validateSequencesList v ["a", "b", "c"] = .ok (exAbsorbed.map (List.map Fin.val)) := by
    rw [hv]
    rfl
  rw [← hv]
  obtain ⟨r, hr⟩ : ∃ r, assessHomogeneity cdf (.list [.str "a", .str "b", .str "c"]) v
      (.float (.fin (1 / 20))) = .ok r := by
    unfold assessHomogeneity
    rw [l1, R.ok_bind, s1, R.ok_bind, exSignificance, R.ok_bind]
    exact ⟨_, rfl⟩
  obtain ⟨labels, seqs, sig, hl, hs, hsig, -, -, k⟩ := C61_homogeneity hcdf hr
  obtain rfl := Except.ok.inj (l1.symm.trans hl)
  obtain rfl := Except.ok.inj (exSignificance.symm.trans hsig)
  obtain rfl : seqs = exAbsorbed := by
    rw [s1] at hs
    exact (List.map_injective_iff.mpr (List.map_injective_iff.mpr Fin.val_injective)
      (Except.ok.inj hs)).symm
  obtain ⟨-, p, -, -, hp, -, -, hx, hd, b, hb, hiff⟩ := k ⟨(0 : Fin 2), (1 : Fin 2), Fin.zero_ne_one, (2 : Fin 3), by decide, by decide⟩
  have hlog0 : 0 < Real.log 2 := Real.log_pos (by norm_num)
  have hlog1 : Real.log 2 < 7 / 10 := lt_trans Real.log_two_lt_d9 (by norm_num)
  have hlog2 : 69 / 100 < Real.log 2 := lt_trans (by norm_num) Real.log_two_gt_d9
  have hexp : ∀ k : ℕ, Real.exp (-(2 * k * Real.log 2) / 2) = (1 / 2) ^ k := by
    intro k
    rw [show -(2 * k * Real.log 2) / 2 = k * (-Real.log 2) by ring, Real.exp_nat_mul, Real.exp_neg,
      Real.exp_log (by norm_num)]
    norm_num
  have hst : homogeneityStatistic exAbsorbed = 44 * Real.log 2 := exAbsorbed_homogeneity
  refine ⟨r, hr, hx.trans (congrArg Flt.fin hst), hd, ?_, ?_, ?_, exAbsorbed_conditional, ?_⟩
  · rw [hb]
    refine congrArg some (hiff.mpr ?_)
    have hp' : cdf (.fin (44 * Real.log 2)) 6 = .fin (1 - p) := by
      rw [← hst]
      exact hp (by decide)
    rw [h6 _ (by linarith)] at hp'
    have e := hexp 22
    rw [show (2 * ((22 : ℕ) : ℝ) * Real.log 2) = 44 * Real.log 2 by push_cast; ring] at e
    rw [e] at hp'
    have : 1 - (1 / 2 : ℝ) ^ 22 * (1 + 44 * Real.log 2 / 2 + (44 * Real.log 2) ^ 2 / 8) = 1 - p := by
      injection hp'
    have hle : (44 * Real.log 2) ^ 2 ≤ 31 ^ 2 := pow_le_pow_left₀ (by linarith) (by linarith) 2
    norm_num at this ⊢
    linarith
  · constructor
    · intro i j
      fin_cases i <;> fin_cases j <;> simp [absorbP]
    · intro i
      rw [Fin.sum_univ_three]
      fin_cases i
      · simp [absorbP]
      · simp [absorbP]
      · simp [absorbP]
        norm_num
  · intro s hs
    simp only [exAbsorbed, List.mem_cons, List.not_mem_nil, or_false] at hs
    rcases hs with rfl | rfl <;> simp [walkProb, absorbP]
  · refine ⟨_, by rw [exAbsorbed_conditional]; exact h6 _ (by linarith), ?_⟩
    have e := hexp 2
    rw [show (2 * ((2 : ℕ) : ℝ) * Real.log 2) = 4 * Real.log 2 by push_cast; ring] at e
    rw [e]
    have hge : (276 / 100 : ℝ) ^ 2 ≤ (4 * Real.log 2) ^ 2 := pow_le_pow_left₀ (by norm_num) (by linarith) 2
    norm_num at hge ⊢
    linarith

end Verif
