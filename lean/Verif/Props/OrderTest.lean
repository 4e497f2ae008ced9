import Mathlib.Analysis.Complex.ExponentialBounds
import Verif.Props.Assessments

/-!
# What the test of the Markov property computes (C159)
-/

set_option linter.unusedSectionVars false

namespace Verif

open Finset

variable {n : ℕ}

/-- Pearson's statistic over all triples that can occur. -/
noncomputable def tripleStatistic {n : ℕ} (seq sample : List (Fin n)) : ℝ :=
  ∑ i, ∑ s, ∑ j,
    (tripleCount sample i s j - expectedTriples seq sample i s j) ^ 2 / expectedTriples seq sample i s j

/-- The expected number of the triples that do not occur. -/
noncomputable def missingTriples {n : ℕ} (seq sample : List (Fin n)) : ℝ :=
  ∑ i, ∑ s, ∑ j, if 0 < tripleCount sample i s j then 0 else expectedTriples seq sample i s j

/-- The degrees of freedom of the hypothesis that the order is one, against the order two: the parameters
of a chain of order two less those of a chain of order one. -/
def orderDof (n : ℕ) : ℤ := (n : ℤ) ^ 2 * (n - 1) - n * (n - 1)

theorem missingTriples_nonneg (seq sample : List (Fin n)) : 0 ≤ missingTriples seq sample := by
  unfold missingTriples expectedTriples observedFrequency
  refine Finset.sum_nonneg fun i _ => Finset.sum_nonneg fun s _ => Finset.sum_nonneg fun j _ => ?_
  split_ifs <;> positivity

theorem tripleStatistic_eq (seq sample : List (Fin n)) :
    tripleStatistic seq sample = markovStatistic seq sample + missingTriples seq sample := by
  unfold tripleStatistic markovStatistic missingTriples
  simp only [← Finset.sum_add_distrib]
  refine Finset.sum_congr rfl fun i _ => Finset.sum_congr rfl fun s _ => Finset.sum_congr rfl fun j _ => ?_
  split_ifs with h
  · rw [add_zero]
  · rw [Nat.eq_zero_of_not_pos h, zero_add, Nat.cast_zero, zero_sub, neg_sq, sq]
    rcases eq_or_ne (expectedTriples seq sample i s j) 0 with h0 | h0
    · rw [h0]
      simp
    · rw [mul_div_assoc, div_self h0, mul_one]

/-- The statistic of `assess_markov_property` is smaller than Pearson's statistic by the expected number of
the triples that do not occur. -/
theorem C159_statistic {cdf : Flt ℝ → ℤ → Flt ℝ}
    {possibleStates sequence significance : PyVal ℝ} {r : TestResult}
    (h : assessMarkovProperty cdf possibleStates sequence significance = .ok r) :
    ∃ (labels : List String) (seq sample : List (Fin labels.length)) (x : ℝ),
      validateLabelsInput possibleStates none = .ok labels ∧
      validateSequence sequence labels = .ok (seq.map Fin.val) ∧
      sample = seq.take (3 * (seq.length / 3)) ∧ r.chi2 = .fin x ∧
      tripleStatistic seq sample = x + missingTriples seq sample ∧ 0 ≤ missingTriples seq sample ∧
      ((∀ i s j, 0 < expectedTriples seq sample i s j → 0 < tripleCount sample i s j) →
        x = tripleStatistic seq sample) := by
  obtain ⟨labels, seq, sig, hl, hs, -, hr⟩ := assessMarkov_spec h
  have h3 : seq.length - seq.length % 3 = 3 * (seq.length / 3) := by omega
  rw [h3] at hr
  refine ⟨labels, seq, _, markovStatistic seq (seq.take (3 * (seq.length / 3))), hl, hs, rfl, ?_,
    tripleStatistic_eq _ _, missingTriples_nonneg _ _, fun hall => ?_⟩
  · rw [hr]
    rfl
  · rw [tripleStatistic_eq]
    have : missingTriples seq (seq.take (3 * (seq.length / 3))) = 0 := by
      unfold missingTriples
      refine Finset.sum_eq_zero fun i _ => Finset.sum_eq_zero fun s _ => Finset.sum_eq_zero fun j _ => ?_
      split_ifs with hp
      · rfl
      · refine le_antisymm (not_lt.mp fun h => hp (hall i s j h)) ?_
        unfold expectedTriples observedFrequency
        positivity
    rw [this, add_zero]

theorem occurrenceDof_all {seq : List (Fin n)} (hall : ∀ i s j, 0 < tripleCount seq i s j) :
    occurrenceDof seq = orderDof n + (n ^ 2 - 1) := by
  have h2 : ∀ s j, 0 < transitionCount seq s j := fun s j => by
    have h := hall s s j
    rw [← List.take_length (l := seq)] at h
    exact transition_of_triple h
  have h1 : seq.toFinset = univ := by
    ext s
    simp only [List.mem_toFinset, Finset.mem_univ, iff_true]
    have h := hall s s s
    unfold tripleCount at h
    obtain ⟨t, ht⟩ := Finset.card_pos.mp h
    rw [Finset.mem_filter] at ht
    exact List.mem_of_getElem? ht.2.1
  unfold occurrenceDof orderDof
  rw [Finset.filter_true_of_mem fun x _ => hall x.1 x.2.1 x.2.2, Finset.filter_true_of_mem fun x _ => h2 x.1 x.2,
    h1]
  simp only [Finset.card_univ, Fintype.card_prod, Fintype.card_fin]
  push_cast
  ring

/-- If all triples occur, then the degrees of freedom exceed those of the hypothesis by the square of the
number of the states less one. -/
theorem C159_degrees_of_freedom {cdf : Flt ℝ → ℤ → Flt ℝ}
    {possibleStates sequence significance : PyVal ℝ} {r : TestResult}
    (h : assessMarkovProperty cdf possibleStates sequence significance = .ok r) :
    ∃ (labels : List String) (seq : List (Fin labels.length)),
      validateLabelsInput possibleStates none = .ok labels ∧
      validateSequence sequence labels = .ok (seq.map Fin.val) ∧
      ∀ k, (∀ x ∈ labels, x.length = k) → (∀ i s j, 0 < tripleCount seq i s j) →
        r.dof = some (orderDof labels.length + ((labels.length : ℤ) ^ 2 - 1)) := by
  obtain ⟨labels, seq, hl, hs, k⟩ := C78_equal_lengths_partial h
  refine ⟨labels, seq, hl, hs, fun l hk hall => ?_⟩
  rw [k l hk, occurrenceDof_all hall]

/-- The statistic is zero for a sequence in which every state has one successor. -/
theorem markovStatistic_deterministic {seq : List (Fin n)} {k : ℕ}
    (hdet : ∀ i j l, 0 < transitionCount seq i j → 0 < transitionCount seq i l → j = l) :
    markovStatistic seq (seq.take k) = 0 := by
  unfold markovStatistic
  refine Finset.sum_eq_zero fun i _ => Finset.sum_eq_zero fun s _ => Finset.sum_eq_zero fun j _ => ?_
  split_ifs with h
  swap
  · rfl
  have hj := transition_of_triple h
  have hfreq : observedFrequency seq s j = 1 := by
    unfold observedFrequency
    rw [Finset.sum_eq_single j (fun l _ hl => Nat.eq_zero_of_not_pos fun hp => hl (hdet s l j hp hj))
      (fun hn => absurd (Finset.mem_univ _) hn)]
    exact div_self (by exact_mod_cast hj.ne')
  have hcount : tripleCount (seq.take k) i s j = followedCount (seq.take k) i s := by
    unfold tripleCount followedCount
    refine congrArg Finset.card (Finset.filter_congr fun t _ => ⟨?_, ?_⟩)
    · rintro ⟨h0, h1, h2⟩
      exact ⟨(List.getElem?_eq_some_iff.mp h2).1, h0, h1⟩
    · rintro ⟨h2, h0, h1⟩
      refine ⟨h0, h1, ?_⟩
      have e : (seq.take k)[t + 2]? = some (seq.take k)[t + 2] := List.getElem?_eq_getElem h2
      rw [e]
      refine congrArg some (hdet s _ j (transition_of_triple (k := k) (i := i) ?_) hj)
      unfold tripleCount
      exact Finset.card_pos.mpr ⟨t, Finset.mem_filter.mpr ⟨Finset.mem_range.mpr (by omega), h0, h1, e⟩⟩
  unfold expectedTriples
  rw [hfreq, hcount, mul_one, sub_self]
  simp

/-- A sequence in which every state has one successor has the statistic zero, and it is not rejected if
there are degrees of freedom. -/
theorem C159_deterministic_partial {cdf : Flt ℝ → ℤ → Flt ℝ} (hcdf : ∀ d, 0 < d → cdf (.fin 0) d = .fin 0)
    {possibleStates sequence significance : PyVal ℝ} {r : TestResult}
    (h : assessMarkovProperty cdf possibleStates sequence significance = .ok r) :
    ∃ (labels : List String) (seq : List (Fin labels.length)) (d : ℤ),
      validateLabelsInput possibleStates none = .ok labels ∧
      validateSequence sequence labels = .ok (seq.map Fin.val) ∧ r.dof = some d ∧
      ((∀ i j l, 0 < transitionCount seq i j → 0 < transitionCount seq i l → j = l) →
        r.chi2 = .fin 0 ∧ (0 < d → r.pValue = .fin 1 ∧ r.rejection = some false)) := by
  obtain ⟨labels, seq, sig, hl, hs, hsig, hr⟩ := assessMarkov_spec h
  refine ⟨labels, seq, _, hl, hs, by rw [hr]; rfl, fun hdet => ?_⟩
  rw [markovStatistic_deterministic hdet] at hr
  refine ⟨by rw [hr]; rfl, fun hd => ?_⟩
  have : sig ≤ 1 / 5 := ((C03_float_limits _ _ _ _).mp hsig).2.2.2.2 (1 / 5) rfl
  rw [hr, concludeNull_of_ne hd.ne']
  unfold conclude
  rw [hcdf _ hd]
  refine ⟨by simp [oneMinus], ?_⟩
  simp only [oneMinus, belowThreshold, Option.some.injEq, decide_eq_false_iff_not, not_lt]
  linarith

theorem getD_replicate_lt {k t : ℕ} (h : t < k) (i : ℕ) : (List.replicate k i).getD t 0 = i := by
  rw [List.getD_eq_getElem _ _ (by simpa using h), List.getElem_replicate]

theorem markovDof_constant (labels : List String) {k : ℕ} (hk : 3 ≤ k) (i : ℕ) :
    markovDof labels (List.replicate k i) = 0 := by
  unfold markovDof
  have h3 : tripleWords labels (List.replicate k i) =
      List.replicate (k - 2) (labels.getD i "" ++ labels.getD i "" ++ labels.getD i "") := by
    unfold tripleWords
    rw [List.length_replicate, List.eq_replicate_iff]
    refine ⟨by simp, fun w hw => ?_⟩
    obtain ⟨t, ht, rfl⟩ := List.mem_map.mp hw
    rw [List.mem_range] at ht
    rw [getD_replicate_lt (by omega), getD_replicate_lt (by omega), getD_replicate_lt (by omega)]
  have h2 : doubleWords labels (List.replicate k i) =
      List.replicate (k - 1) (labels.getD i "" ++ labels.getD i "") := by
    unfold doubleWords
    rw [List.length_replicate, List.eq_replicate_iff]
    refine ⟨by simp, fun w hw => ?_⟩
    obtain ⟨t, ht, rfl⟩ := List.mem_map.mp hw
    rw [List.mem_range] at ht
    rw [getD_replicate_lt (by omega), getD_replicate_lt (by omega)]
  rw [h3, h2, List.map_replicate, List.replicate_dedup (by omega), List.replicate_dedup (by omega),
    List.replicate_dedup (by omega)]
  simp

/-- A constant sequence of three or more elements is rejected, although its statistic is zero. -/
theorem C159_constant_rejected {cdf : Flt ℝ → ℤ → Flt ℝ}
    {possibleStates sequence significance : PyVal ℝ} {labels : List String} {k i : ℕ} {r : TestResult}
    (hl : validateLabelsInput possibleStates none = .ok labels)
    (hs : validateSequence sequence labels = .ok (List.replicate k i)) (hk : 3 ≤ k)
    (h : assessMarkovProperty cdf possibleStates sequence significance = .ok r) :
    r.chi2 = .fin 0 ∧ r.dof = some 0 ∧ r.rejection = some true := by
  obtain ⟨labels', seq, sig, hl', hs', hsig, hr⟩ := assessMarkov_spec h
  obtain rfl := Except.ok.inj (hl.symm.trans hl')
  have he : List.replicate k i = seq.map Fin.val := Except.ok.inj (hs.symm.trans hs')
  have hmem : ∀ a ∈ seq, a.val = i := fun a ha => by
    have : a.val ∈ List.replicate k i := by
      rw [he]
      exact List.mem_map_of_mem ha
    exact List.eq_of_mem_replicate this
  have hdet : ∀ a b c, 0 < transitionCount seq a b → 0 < transitionCount seq a c → b = c := by
    intro a b c hb hc
    unfold transitionCount at hb hc
    have e1 := hmem b (List.mem_of_mem_tail (List.of_mem_zip (List.count_pos_iff.mp hb)).2)
    have e2 := hmem c (List.mem_of_mem_tail (List.of_mem_zip (List.count_pos_iff.mp hc)).2)
    exact Fin.ext (e1.trans e2.symm)
  rw [markovStatistic_deterministic hdet, ← he, markovDof_constant _ hk] at hr
  have : 0 < sig := ((C03_float_limits _ _ _ _).mp hsig).2.1 0 rfl
  rw [hr]
  exact ⟨rfl, rfl, by simp [concludeNull, belowThreshold, this]⟩

/-- Two observations are consistent with every hypothesis. The Markov property is rejected if they differ; if they do
not differ, the degrees of freedom are negative. -/
theorem C159_two_observations {cdf : Flt ℝ → ℤ → Flt ℝ}
    {possibleStates sequence significance : PyVal ℝ} {labels : List String} {i j : ℕ} {r : TestResult}
    (hl : validateLabelsInput possibleStates none = .ok labels)
    (hs : validateSequence sequence labels = .ok [i, j])
    (h : assessMarkovProperty cdf possibleStates sequence significance = .ok r) :
    (i = j → r.dof = some (-1)) ∧ (i ≠ j → r.dof = some 0 ∧ r.pValue = .fin 0 ∧ r.rejection = some true) := by
  obtain ⟨labels', seq, sig, hl', hs', hsig, hr⟩ := assessMarkov_spec h
  obtain rfl := Except.ok.inj (hl.symm.trans hl')
  have he : [i, j] = seq.map Fin.val := Except.ok.inj (hs.symm.trans hs')
  have hlt : ∀ x ∈ [i, j], x < labels.length := fun x hx => by
    rw [he] at hx
    obtain ⟨y, -, rfl⟩ := List.mem_map.mp hx
    exact y.isLt
  have hpos : 0 < sig := ((C03_float_limits _ _ _ _).mp hsig).2.1 0 rfl
  rw [← he] at hr
  have hdof : markovDof labels [i, j] = 0 - 1 + (([labels.getD i "", labels.getD j ""].dedup.length : ℕ) : ℤ) - 1 := rfl
  constructor
  · rintro rfl
    have : markovDof labels [i, i] = -1 := by rw [hdof]; simp
    rw [hr, this]
    rfl
  · intro hij
    have hnodup := (validateLabelsInput_none hl).2.2.1
    have hne : labels.getD i "" ≠ labels.getD j "" := by
      rw [List.getD_eq_getElem _ _ (hlt i (by simp)), List.getD_eq_getElem _ _ (hlt j (by simp))]
      exact fun e => hij ((List.Nodup.getElem_inj_iff hnodup).1 e)
    have : markovDof labels [i, j] = 0 := by
      rw [hdof, List.Nodup.dedup (by simpa using hne)]
      rfl
    rw [hr, this]
    exact ⟨rfl, rfl, by simp [concludeNull, belowThreshold, hpos]⟩

/-! ## Witnesses -/

/-- A sequence of two states in which all triples occur. -/
def exTriples : List (Fin 2) := [0, 0, 1, 1, 0, 0, 1, 0, 1, 1, 0, 0, 0, 1, 1, 1, 0, 0, 1, 1, 0]

theorem exTriples_triples : ∀ i s j, tripleCount exTriples i s j =
    (![![![1, 4], ![1, 4]], ![![3, 1], ![4, 1]]] : Fin 2 → Fin 2 → Fin 2 → ℕ) i s j := by decide +kernel

theorem exTriples_pairs : ∀ i s, followedCount exTriples i s =
    (![![5, 5], ![4, 5]] : Fin 2 → Fin 2 → ℕ) i s := by decide +kernel

theorem exTriples_transitions : ∀ i j, transitionCount exTriples i j =
    (![![5, 5], ![5, 5]] : Fin 2 → Fin 2 → ℕ) i j := by decide +kernel

theorem exTriples_statistic : markovStatistic exTriples exTriples = 32 / 5 := by
  unfold markovStatistic expectedTriples observedFrequency
  simp only [exTriples_triples, exTriples_pairs, exTriples_transitions, Fin.sum_univ_two]
  simp
  norm_num

/-- A sequence that is not rejected, with five degrees of freedom, although its statistic exceeds the
quantile of the two degrees of freedom of the hypothesis; in `hcdf`, the probability of larger values is
about `0.27`. -/
theorem C159_missed_rejection {cdf : Flt ℝ → ℤ → Flt ℝ}
    (hcdf : ∃ y : ℝ, y ≤ 19 / 20 ∧ cdf (.fin (32 / 5)) 5 = .fin y)
    (hcdf2 : ∀ x : ℝ, 0 ≤ x → cdf (.fin x) 2 = .fin (1 - Real.exp (-x / 2))) :
    ∃ r : TestResult,
      assessMarkovProperty cdf (.list [.str "a", .str "b"])
        (.list [.int 0, .int 0, .int 1, .int 1, .int 0, .int 0, .int 1, .int 0, .int 1, .int 1, .int 0,
          .int 0, .int 0, .int 1, .int 1, .int 1, .int 0, .int 0, .int 1, .int 1, .int 0])
        (.float (.fin (1 / 20))) = .ok r ∧
      r.chi2 = .fin (32 / 5) ∧ r.dof = some 5 ∧ r.rejection = some false ∧
      tripleStatistic exTriples exTriples = 32 / 5 ∧ orderDof 2 = 2 ∧
      (conclude cdf (.fin (tripleStatistic exTriples exTriples)) (orderDof 2) (1 / 20)).rejection = some true := by
  have l1 : validateLabelsInput (.list [.str "a", .str "b"] : PyVal ℝ) none = .ok ["a", "b"] := rfl
  obtain ⟨v, hv⟩ : ∃ v : PyVal ℝ, v = .list [.int 0, .int 0, .int 1, .int 1, .int 0, .int 0, .int 1,
    .int 0, .int 1, .int 1, .int 0, .int 0, .int 0, .int 1, .int 1, .int 1, .int 0, .int 0, .int 1,
    .int 1, .int 0] := ⟨_, rfl⟩
  have s1 : validateSequence v ["a", "b"] = .ok (exTriples.map Fin.val) := by
    rw [hv]
    rfl
  rw [← hv]
  obtain ⟨r, hr⟩ : ∃ r, assessMarkovProperty cdf (.list [.str "a", .str "b"]) v
      (.float (.fin (1 / 20))) = .ok r := by
    unfold assessMarkovProperty
    rw [l1, R.ok_bind, s1, R.ok_bind, exSignificance, R.ok_bind]
    exact ⟨_, rfl⟩
  obtain ⟨labels, seq, sig, hl, hs, hsig, k⟩ := assessMarkov_spec hr
  obtain rfl := Except.ok.inj (l1.symm.trans hl)
  obtain rfl := Except.ok.inj (exSignificance.symm.trans hsig)
  obtain rfl : seq = exTriples := by
    rw [s1] at hs
    exact (List.map_injective_iff.mpr Fin.val_injective (Except.ok.inj hs)).symm
  have htake : exTriples.take (exTriples.length - exTriples.length % 3) = exTriples := by decide
  have hpos : ∀ i s j, 0 < tripleCount exTriples i s j := by
    intro i s j
    rw [exTriples_triples]
    revert i s j
    decide
  have hdof : markovDof ["a", "b"] (exTriples.map Fin.val) = 5 := by
    refine (markovDof_eq (labels := ["a", "b"]) (by decide) (k := 1) (by decide) exTriples).trans ?_
    exact occurrenceDof_all hpos
  have hr' : r = conclude cdf (.fin (32 / 5)) 5 (1 / 20) := by
    refine k.trans ?_
    erw [htake, exTriples_statistic, hdof]
    exact concludeNull_of_ne (by norm_num) _
  have htr : tripleStatistic exTriples exTriples = 32 / 5 := by
    have hm : missingTriples exTriples exTriples = 0 := by
      unfold missingTriples
      refine Finset.sum_eq_zero fun i _ => Finset.sum_eq_zero fun s _ => Finset.sum_eq_zero fun j _ => ?_
      rw [if_pos (hpos i s j)]
    rw [tripleStatistic_eq, exTriples_statistic, hm, add_zero]
  obtain ⟨y, hy, hy'⟩ := hcdf
  refine ⟨r, hr, ?_, ?_, ?_, htr, rfl, ?_⟩
  · rw [hr']
    rfl
  · rw [hr']
    rfl
  · rw [hr']
    unfold conclude
    rw [hy']
    simp only [oneMinus, belowThreshold, Option.some.injEq, decide_eq_false_iff_not, not_lt]
    linarith
  · rw [htr, show orderDof 2 = 2 from rfl]
    unfold conclude
    rw [hcdf2 _ (by norm_num)]
    simp only [oneMinus, belowThreshold, Option.some.injEq, decide_eq_true_eq]
    have h1 : (2.7 : ℝ) < Real.exp 1 := lt_trans (by norm_num) Real.exp_one_gt_d9
    have h3 : (2.7 : ℝ) ^ 3 < Real.exp 3 := by
      rw [show (3 : ℝ) = (3 : ℕ) * 1 by norm_num, Real.exp_nat_mul]
      exact pow_lt_pow_left₀ h1 (by norm_num) (by norm_num)
    have h5 : (1.2 : ℝ) ≤ Real.exp (1 / 5) := le_trans (by norm_num) (Real.add_one_le_exp (1 / 5))
    have h6 : (20 : ℝ) < Real.exp (16 / 5) := by
      rw [show (16 / 5 : ℝ) = 3 + 1 / 5 by norm_num, Real.exp_add]
      have := mul_lt_mul h3 h5 (by norm_num) (Real.exp_pos 3).le
      exact lt_trans (by norm_num) this
    rw [sub_sub_cancel, show (-(32 / 5) / 2 : ℝ) = -(16 / 5) by norm_num, Real.exp_neg]
    rw [show (1 / 20 : ℝ) = (20 : ℝ)⁻¹ by norm_num]
    exact inv_strictAnti₀ (by norm_num) h6

/-- A constant sequence and an alternating one, whose successors are certain. -/
theorem C159_accepts (cdf : Flt ℝ → ℤ → Flt ℝ) (hcdf : ∀ d, 0 < d → cdf (.fin 0) d = .fin 0) :
    (∃ r, assessMarkovProperty cdf (.list [.str "a", .str "b"]) (.list [.int 0, .int 0, .int 0, .int 0])
      (.float (.fin (1 / 20))) = .ok r ∧ r.chi2 = .fin 0 ∧ r.rejection = some true) ∧
    ∃ r, assessMarkovProperty cdf (.list [.str "a", .str "b"]) (.list [.int 0, .int 1, .int 0, .int 1])
      (.float (.fin (1 / 20))) = .ok r ∧ r.chi2 = .fin 0 ∧ r.rejection = some false := by
  have l1 : validateLabelsInput (.list [.str "a", .str "b"] : PyVal ℝ) none = .ok ["a", "b"] := rfl
  constructor
  · have s1 : validateSequence (.list [.int 0, .int 0, .int 0, .int 0] : PyVal ℝ) ["a", "b"] =
      .ok (List.replicate 4 0) := rfl
    obtain ⟨r, hr⟩ : ∃ r, assessMarkovProperty cdf (.list [.str "a", .str "b"])
        (.list [.int 0, .int 0, .int 0, .int 0]) (.float (.fin (1 / 20))) = .ok r := by
      unfold assessMarkovProperty
      rw [l1, R.ok_bind, s1, R.ok_bind, exSignificance, R.ok_bind]
      exact ⟨_, rfl⟩
    obtain ⟨k1, -, k3⟩ := C159_constant_rejected l1 s1 (by norm_num) hr
    exact ⟨r, hr, k1, k3⟩
  · have s1 : validateSequence (.list [.int 0, .int 1, .int 0, .int 1] : PyVal ℝ) ["a", "b"] =
      .ok [0, 1, 0, 1] := rfl
    obtain ⟨r, hr⟩ : ∃ r, assessMarkovProperty cdf (.list [.str "a", .str "b"])
        (.list [.int 0, .int 1, .int 0, .int 1]) (.float (.fin (1 / 20))) = .ok r ∧ r.dof = some 1 := by
      unfold assessMarkovProperty
      rw [l1, R.ok_bind, s1, R.ok_bind, exSignificance, R.ok_bind]
      refine ⟨_, rfl, ?_⟩
      have : markovDof ["a", "b"] [0, 1, 0, 1] = 1 := by decide +kernel
      exact congrArg some this
    obtain ⟨labels, seq, d, hl, hs, hd, k⟩ := C159_deterministic_partial hcdf hr.1
    obtain rfl := Except.ok.inj (l1.symm.trans hl)
    obtain rfl : seq = ([0, 1, 0, 1] : List (Fin 2)) := by
      rw [s1] at hs
      have : ([0, 1, 0, 1] : List (Fin 2)).map Fin.val = seq.map Fin.val := Except.ok.inj hs
      exact (List.map_injective_iff.mpr Fin.val_injective this).symm
    have hdet : ∀ i j l : Fin 2, 0 < transitionCount ([0, 1, 0, 1] : List (Fin 2)) i j →
      0 < transitionCount ([0, 1, 0, 1] : List (Fin 2)) i l → j = l := by decide
    obtain ⟨k1, k2⟩ := k hdet
    have hd1 : d = 1 := Option.some.inj (hd.symm.trans hr.2)
    exact ⟨r, hr.1, k1, (k2 (by rw [hd1]; norm_num)).2⟩

end Verif
