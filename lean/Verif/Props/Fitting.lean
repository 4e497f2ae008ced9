import Verif.Model.Fitting
import Verif.Lemmas.Generators
import Verif.Props.Validation
import Verif.Spec.Valid
import Mathlib.Analysis.SpecialFunctions.Exp
import Mathlib.Algebra.Order.BigOperators.Ring.Finset
import Mathlib.Data.List.Count
import Mathlib.Tactic.Linarith
import Mathlib.Tactic.Ring
import Mathlib.Tactic.FieldSimp
import Mathlib.Tactic.FinCases

/-!
# Fitting from sequences (C24, C25)
-/

set_option linter.unusedSectionVars false
set_option linter.unusedSimpArgs false

namespace Verif

/-- Number of transitions from `i` to `j` in a sequence of states. -/
def transitionCount {n : ℕ} (seq : List (Fin n)) (i j : Fin n) : ℕ := (seq.zip seq.tail).count (i, j)

theorem transitionCount_cons {n : ℕ} (a b : Fin n) (t : List (Fin n)) (i j : Fin n) :
    transitionCount (a :: b :: t) i j =
      transitionCount (b :: t) i j + if i = a ∧ j = b then 1 else 0 := by
  simp only [transitionCount, List.tail_cons, List.zip_cons_cons, List.count_cons]
  congr 1
  by_cases h : i = a ∧ j = b
  · simp [h]
  · rw [if_neg h, if_neg]
    simp only [beq_iff_eq, Prod.mk.injEq]
    rintro ⟨rfl, rfl⟩
    exact h ⟨rfl, rfl⟩

theorem zip_dropLast_tail {α : Type} (l : List α) : l.dropLast.zip l.tail = l.zip l.tail := by
  induction l with
  | nil => rfl
  | cons a l ih =>
    cases l with
    | nil => rfl
    | cons b t => simpa using ih

theorem foldl_addCount {n : ℕ} (l : List (Fin n × Fin n)) (M : Matrix (Fin n) (Fin n) ℕ)
    (i j : Fin n) :
    (l.map fun x => ((x.1 : ℕ), (x.2 : ℕ))).foldl addCount M i j = M i j + l.count (i, j) := by
  induction l generalizing M with
  | nil => simp
  | cons x l ih =>
    simp only [List.map_cons, List.foldl_cons]
    rw [ih, List.count_cons]
    obtain ⟨a, b⟩ := x
    by_cases h : i = a ∧ j = b
    · obtain ⟨rfl, rfl⟩ := h
      simp [addCount]; omega
    · have h1 : ¬ ((i : ℕ) = a ∧ (j : ℕ) = b) := by simpa [Fin.ext_iff] using h
      have h2 : ((a, b) == (i, j)) = false := by
        simp only [beq_eq_false_iff_ne, ne_eq, Prod.mk.injEq]
        rintro ⟨rfl, rfl⟩; exact h ⟨rfl, rfl⟩
      simp [addCount, h1, h2]

theorem countMatrix_eq {n : ℕ} (seq : List (Fin n)) (i j : Fin n) :
    countMatrix n (seq.map Fin.val) i j = transitionCount seq i j := by
  unfold countMatrix transitionCount
  rw [zip_dropLast_tail, ← List.map_tail, List.zip_map]
  have := foldl_addCount (seq.zip seq.tail) (fun _ _ => 0) i j
  rw [Nat.zero_add] at this
  exact this

section walk
variable {K : Type} [Field K]

/-- The probability of a sequence is the product of the entries to the power of the counts. -/
theorem walkProb_eq_prod {n : ℕ} (Q : Fin n → Fin n → K) (seq : List (Fin n)) :
    walkProb Q seq = ∏ i, ∏ j, Q i j ^ transitionCount seq i j := by
  induction seq with
  | nil => simp [walkProb, transitionCount]
  | cons a t ih =>
    cases t with
    | nil => simp [walkProb, transitionCount]
    | cons b t =>
      simp only [walkProb, ih, transitionCount_cons, pow_add, Finset.prod_mul_distrib]
      rw [mul_comm]
      congr 1
      rw [Finset.prod_eq_single a, Finset.prod_eq_single b]
      · simp
      · intro j _ hj; simp [hj]
      · simp
      · intro i _ hi
        refine Finset.prod_eq_one fun j _ => by simp [hi]
      · simp

end walk

/-- Gibbs' inequality for one row of counts. -/
theorem row_optimal {n : ℕ} (c : Fin n → ℕ) (q : Fin n → ℝ) (h0 : ∀ j, 0 ≤ q j)
    (h1 : ∑ j, q j = 1) (hc : 0 < ∑ j, c j) :
    ∏ j, q j ^ c j ≤ ∏ j, ((c j : ℝ) / (∑ l, c l : ℕ)) ^ c j := by
  set N : ℝ := ((∑ l, c l : ℕ) : ℝ) with hN
  have hNpos : 0 < N := by rw [hN]; exact_mod_cast hc
  have key : ∀ j, q j ^ c j ≤ Real.exp (q j * N - c j) * ((c j : ℝ) / N) ^ c j := by
    intro j
    rcases Nat.eq_zero_or_pos (c j) with h | h
    · simp only [h, pow_zero, Nat.cast_zero, sub_zero, mul_one]
      exact Real.one_le_exp (mul_nonneg (h0 j) hNpos.le)
    · have hcj : (0 : ℝ) < c j := by exact_mod_cast h
      have e1 : q j = (q j * N / c j) * ((c j : ℝ) / N) := by field_simp
      have e2 : q j * N / c j ≤ Real.exp (q j * N / c j - 1) := by
        have := Real.add_one_le_exp (q j * N / c j - 1)
        linarith
      have e3 : Real.exp (q j * N - c j) = Real.exp (q j * N / c j - 1) ^ c j := by
        rw [← Real.exp_nat_mul]
        congr 1
        field_simp
      calc q j ^ c j = (q j * N / c j) ^ c j * ((c j : ℝ) / N) ^ c j := by
            rw [← mul_pow, ← e1]
        _ ≤ _ := by
            rw [e3]
            refine mul_le_mul_of_nonneg_right (pow_le_pow_left₀ ?_ e2 _) ?_
            · exact div_nonneg (mul_nonneg (h0 j) hNpos.le) hcj.le
            · exact pow_nonneg (div_nonneg hcj.le hNpos.le) _
  calc ∏ j, q j ^ c j ≤ ∏ j, (Real.exp (q j * N - c j) * ((c j : ℝ) / N) ^ c j) :=
        Finset.prod_le_prod (fun j _ => pow_nonneg (h0 j) _) (fun j _ => key j)
    _ = Real.exp (∑ j, (q j * N - c j)) * ∏ j, ((c j : ℝ) / N) ^ c j := by
        rw [Finset.prod_mul_distrib, Real.exp_sum]
    _ = _ := by
        rw [Finset.sum_sub_distrib, ← Finset.sum_mul, h1, one_mul, hN, Nat.cast_sum, sub_self,
          Real.exp_zero, one_mul]

/-- The matrix of relative frequencies maximises the weighted likelihood. -/
theorem counts_optimal {m n : ℕ} (c : Fin m → Fin n → ℕ) {P Q : Fin m → Fin n → ℝ}
    (hQ : IsStochastic Q)
    (hP : ∀ i, 0 < ∑ j, c i j → ∀ j, P i j = (c i j : ℝ) / (∑ l, c i l : ℕ)) :
    ∏ i, ∏ j, Q i j ^ c i j ≤ ∏ i, ∏ j, P i j ^ c i j := by
  refine Finset.prod_le_prod (fun i _ => Finset.prod_nonneg fun j _ => pow_nonneg (hQ.1 i j) _) ?_
  intro i _
  rcases Nat.eq_zero_or_pos (∑ j, c i j) with h | h
  · have : ∀ j, c i j = 0 := by simpa using h
    simp [this]
  · refine (row_optimal (c i) (Q i) (hQ.1 i) (hQ.2 i) h).trans_eq ?_
    exact Finset.prod_congr rfl fun j _ => by rw [hP i h j]

variable {K : Type} [Field K] [LinearOrder K] [IsStrictOrderedRing K]

theorem extractNumeric_pyMatrix' {m n : ℕ} (hm : 0 < m) (M : Matrix (Fin m) (Fin n) K) :
    extractNumeric (pyMatrix M) =
      some (.mat (List.ofFn fun i => List.ofFn fun j => .fin (M i j))) := by
  obtain ⟨m, rfl⟩ : ∃ k, m = k + 1 := ⟨m - 1, by omega⟩
  exact extractNumeric_pyMatrix M

theorem names_lt {labels : List String} {v : PyVal K} {i : ℕ} (h : Names labels v i) :
    i < labels.length := by
  rcases h with ⟨-, h⟩ | ⟨s, -, -, h⟩
  · exact h
  · exact (List.getElem?_eq_some_iff.1 h).1

theorem forall₂_names_fin {labels : List String} {l : List (PyVal K)} {r : List ℕ}
    (h : List.Forall₂ (Names labels) l r) : ∃ s : List (Fin labels.length), s.map Fin.val = r ∧
      List.Forall₂ (fun v (i : Fin labels.length) => Names labels v i) l s := by
  induction h with
  | nil => exact ⟨[], rfl, .nil⟩
  | cons h _ ih =>
    obtain ⟨s, rfl, hs⟩ := ih
    exact ⟨⟨_, names_lt h⟩ :: s, rfl, .cons h hs⟩

theorem validateLabelsInput_none {v : PyVal K} {l : List String}
    (h : validateLabelsInput v none = .ok l) : 2 ≤ l.length ∧ ValidLabels l.length l := by
  have h' : labelsOrDefault v l.length "" = .ok l := by
    unfold validateLabelsInput at h
    split at h
    · next l' =>
      unfold labelsOrDefault
      simp only [validateLabelsInput]
      rw [R.ite_throw] at h ⊢
      refine ⟨h.1, ?_⟩
      have h2 := h.2
      simp only at h2 ⊢
      rw [R.ite_throw] at h2 ⊢
      refine ⟨h2.1, ?_⟩
      have h3 := h2.2
      rw [R.ite_throw] at h3 ⊢
      refine ⟨h3.1, ?_⟩
      have h4 := h3.2
      rw [R.pure_ok] at h4
      rw [R.ite_throw, R.pure_ok]
      exact ⟨by rw [h4]; simp, h4⟩
    · simp [throw, throwThe, MonadExceptOf.throw] at h
  refine ⟨?_, labelsOrDefault_sound h'⟩
  unfold validateLabelsInput at h
  split at h
  · rw [R.ite_throw] at h
    have h2 := h.2
    simp only at h2
    rw [R.ite_throw] at h2
    have h3 := h2.2
    rw [R.ite_throw] at h3
    have h4 := h3.2
    rw [R.pure_ok] at h4
    rw [← h4]
    omega
  · simp [throw, throwThe, MonadExceptOf.throw] at h

theorem fillNullRows_apply {m n : ℕ} (M : Matrix (Fin m) (Fin n) K) (i : Fin m) (j : Fin n) :
    fillNullRows M i j = if ∀ l, M i l = 0 then 1 else M i j := rfl

/-- Rows of a normalised matrix of counts. -/
theorem normalize_fill_row {m n : ℕ} {M : Matrix (Fin m) (Fin n) K} {i : Fin m}
    (h : ∃ l, M i l ≠ 0) (j : Fin n) :
    normalizeRows (fillNullRows M) i j = M i j / ∑ l, M i l := by
  obtain ⟨l, hl⟩ := h
  have : ¬ ∀ l, M i l = 0 := fun h => hl (h l)
  simp [normalizeRows, fillNullRows, this]

theorem normalize_fill_null {m n : ℕ} {M : Matrix (Fin m) (Fin n) K} {i : Fin m}
    (h : ∀ l, M i l = 0) (j : Fin n) : normalizeRows (fillNullRows M) i j = 1 / n := by
  simp [normalizeRows, fillNullRows, h]

section api
variable [FloorRing K]

theorem fitSequence_mle_ok {possible sequence param : PyVal K} {c : MC K}
    (h : fitSequence (.str "mle") possible sequence param = .ok c) :
    ∃ (labels : List String) (l : List (PyVal K)) (seq : List (Fin labels.length)) (s : Bool),
      2 ≤ labels.length ∧ ValidLabels labels.length labels ∧ sequence = .list l ∧
      List.Forall₂ (fun v (i : Fin labels.length) => Names labels v i) l seq ∧
      (param = .none ∧ s = false ∨ param = .bool s) ∧
      c = ⟨labels.length, fitMle labels.length (seq.map Fin.val) s, labels⟩ := by
  unfold fitSequence at h
  rw [R.bind_ok] at h
  obtain ⟨labels, hl, h⟩ := h
  obtain ⟨h2, hv⟩ := validateLabelsInput_none hl
  rw [R.bind_ok] at h
  obtain ⟨r, hr, h⟩ := h
  rw [C04_sequences hv.2.1] at hr
  obtain ⟨l, rfl, -, -, hf⟩ := hr
  obtain ⟨seq, rfl, hs⟩ := forall₂_names_fin hf
  rw [R.bind_ok] at h
  obtain ⟨t, ht, h⟩ := h
  rw [validateEnumerator_ok] at ht
  obtain ⟨ht, -, -⟩ := ht
  cases ht
  rw [if_neg (by decide), R.bind_ok] at h
  obtain ⟨s, hp, h⟩ := h
  rw [R.pure_ok] at h
  refine ⟨labels, l, seq, s, h2, hv, rfl, hs, ?_, h.symm⟩
  split at hp
  · rw [R.pure_ok] at hp
    exact Or.inl ⟨rfl, hp.symm⟩
  · right
    unfold validateBoolean at hp
    split at hp
    · rw [R.pure_ok] at hp; rw [hp]
    · simp [throw, throwThe, MonadExceptOf.throw] at hp

/-- C24. The result of the maximum likelihood fit is a valid chain over the given states. Without
smoothing each entry is the relative frequency of the transition among the transitions that leave
the state, and rows of states that are never left are uniform; with smoothing 0.001 is added to
every count. Smoothing is applied only when it is asked for. -/
theorem C24_mle {possible sequence param : PyVal K} {c : MC K}
    (h : fitSequence (.str "mle") possible sequence param = .ok c) :
    c.Valid ∧ ∃ (l : List (PyVal K)) (seq : List (Fin c.n)), sequence = .list l ∧
      List.Forall₂ (fun v (i : Fin c.n) => Names c.states v i) l seq ∧
      (param = .none ∨ param = .bool false →
        ∀ i j, (0 < ∑ l, transitionCount seq i l →
            c.p i j = transitionCount seq i j / (∑ l, transitionCount seq i l : ℕ)) ∧
          (∑ l, transitionCount seq i l = 0 → c.p i j = 1 / c.n)) ∧
      (param = .bool true → ∀ i j, c.p i j = ((transitionCount seq i j : K) + 1 / 1000) /
        ((∑ l, transitionCount seq i l : ℕ) + c.n / 1000)) := by
  obtain ⟨labels, l, seq, s, h2, hv, rfl, hs, hp, rfl⟩ := fitSequence_mle_ok h
  have hnn : ∀ i j, (0:K) ≤ (countMatrix labels.length (seq.map Fin.val) i j : K) +
      if s then 1 / 1000 else 0 := fun i j => by
    split <;> positivity
  refine ⟨⟨h2, fill_normalize_stochastic (show 0 < labels.length by omega) hnn, hv⟩, l, seq, rfl, hs, ?_, ?_⟩
  · intro hpar i j
    have hs' : s = false := by
      rcases hp with ⟨-, h⟩ | h
      · exact h
      · rcases hpar with h' | h' <;> rw [h] at h' <;> simp_all
    subst hs'
    constructor
    · intro hpos
      refine (normalize_fill_row ?_ j).trans ?_
      · by_contra hall
        push Not at hall
        have : ∀ m, transitionCount seq i m = 0 := by
          intro m
          have := hall m
          simpa [countMatrix_eq] using this
        simp [this] at hpos
      · simp [countMatrix_eq]
    · intro hz
      have : ∀ m, transitionCount seq i m = 0 := by simpa using hz
      exact normalize_fill_null (fun m => by simp [countMatrix_eq, this m]) j
  · intro hpar i j
    have hs' : s = true := by
      rcases hp with ⟨h, -⟩ | h <;> rw [h] at hpar <;> simp_all
    subst hs'
    refine (normalize_fill_row ⟨j, ?_⟩ j).trans ?_
    · simp only [if_true]; positivity
    · simp [countMatrix_eq, Finset.sum_add_distrib, div_eq_mul_inv]

/-- C24, disagreement with the documentation, which says that smoothing is on when the parameter
is omitted: an omitted parameter is the same as `False`. -/
theorem C24_smoothing_off_by_default (possible sequence : PyVal K) :
    fitSequence (.str "mle") possible sequence .none =
      fitSequence (.str "mle") possible sequence (.bool false) := rfl

/-- The two possible values of a hyper-parameter argument. -/
theorem fitSequence_map_ok {possible sequence param : PyVal K} {c : MC K}
    (h : fitSequence (.str "map") possible sequence param = .ok c) :
    ∃ (labels : List String) (l : List (PyVal K)) (seq : List (Fin labels.length))
      (H : Matrix (Fin labels.length) (Fin labels.length) ℕ),
      2 ≤ labels.length ∧ ValidLabels labels.length labels ∧ sequence = .list l ∧
      List.Forall₂ (fun v (i : Fin labels.length) => Names labels v i) l seq ∧ (∀ i j, 1 ≤ H i j) ∧
      (param = .none → ∀ i j, H i j = 1) ∧
      (∀ M : Matrix (Fin labels.length) (Fin labels.length) K, param = pyMatrix M →
        ∀ i j, (H i j : K) = M i j) ∧
      c = ⟨labels.length, fitMap labels.length (seq.map Fin.val) (fun i j => (H i j : K)), labels⟩ := by
  unfold fitSequence at h
  rw [R.bind_ok] at h
  obtain ⟨labels, hl, h⟩ := h
  obtain ⟨h2, hv⟩ := validateLabelsInput_none hl
  rw [R.bind_ok] at h
  obtain ⟨r, hr, h⟩ := h
  rw [C04_sequences hv.2.1] at hr
  obtain ⟨l, rfl, -, -, hf⟩ := hr
  obtain ⟨seq, rfl, hs⟩ := forall₂_names_fin hf
  rw [R.bind_ok] at h
  obtain ⟨t, ht, h⟩ := h
  rw [validateEnumerator_ok] at ht
  obtain ⟨ht, -, -⟩ := ht
  cases ht
  rw [if_pos rfl, R.bind_ok] at h
  obtain ⟨M, hp, h⟩ := h
  rw [R.pure_ok] at h
  have key : ∃ H : Matrix (Fin labels.length) (Fin labels.length) ℕ, (∀ i j, 1 ≤ H i j) ∧
      (∀ i j, (H i j : K) = M i j) ∧ (param = .none → ∀ i j, H i j = 1) ∧
      ∀ M' : Matrix (Fin labels.length) (Fin labels.length) K, param = pyMatrix M' →
        ∀ i j, M i j = M' i j := by
    split at hp
    · rw [R.pure_ok] at hp
      subst hp
      exact ⟨fun _ _ => 1, fun _ _ => le_rfl, fun _ _ => by simp, fun _ _ _ => rfl,
        fun M' h => by simp [pyMatrix] at h⟩
    · next hnone =>
      unfold validateHyper at hp
      split at hp
      · next rows hrows =>
        rw [R.ite_throw] at hp
        obtain ⟨hsh, hp⟩ := hp
        rw [R.ite_throw] at hp
        obtain ⟨hall, hp⟩ := hp
        rw [R.pure_ok] at hp
        push Not at hsh hall
        have hent : ∀ i j, ∃ m : ℕ, 1 ≤ m ∧ (m : K) = M i j := by
          intro i j
          have hi : (i : ℕ) < rows.length := by rw [hsh.1]; exact i.isLt
          have hw : (rows[(i : ℕ)]).length = labels.length := by
            have := List.all_eq_true.1 hsh.2 _ (List.getElem_mem hi)
            simpa using this
          have hj : (j : ℕ) < (rows[(i : ℕ)]).length := by rw [hw]; exact j.isLt
          have hx := List.all_eq_true.1 (List.all_eq_true.1 hall _ (List.getElem_mem hi)) _
            (List.getElem_mem hj)
          have hM : M i j = (rows[(i : ℕ)][(j : ℕ)]).val := by
            rw [← hp]
            simp [toMat, List.getElem?_eq_getElem hi, List.getElem?_eq_getElem hj]
          generalize rows[(i : ℕ)][(j : ℕ)] = x at hx hM
          cases x with
          | fin y =>
            simp only [Flt.isHyper, Bool.and_eq_true, decide_eq_true_eq] at hx
            obtain ⟨e, h1⟩ := hx
            have hfl : (1 : ℤ) ≤ ⌊y⌋ := by
              have : ((1 : ℤ) : K) ≤ (⌊y⌋ : K) := by rw [Int.cast_one]; linarith
              exact_mod_cast this
            refine ⟨⌊y⌋.toNat, by omega, ?_⟩
            rw [hM]
            have : ((⌊y⌋.toNat : ℕ) : K) = ((⌊y⌋.toNat : ℤ) : K) := by norm_cast
            rw [this, Int.toNat_of_nonneg (by omega)]
            simp only [Flt.val]
            linarith
          | _ => simp [Flt.isHyper] at hx
        choose H h1 h2 using hent
        refine ⟨H, h1, h2, fun h => absurd h hnone, ?_⟩
        rintro M' rfl i j
        rw [extractNumeric_pyMatrix' (by omega)] at hrows
        simp only [Option.some.injEq, NumArr.mat.injEq] at hrows
        rw [← hp, ← hrows, toMat_ofFn]
      · simp [throw, throwThe, MonadExceptOf.throw] at hp
      · simp [throw, throwThe, MonadExceptOf.throw] at hp
  obtain ⟨H, h1, hHM, hn, hm⟩ := key
  refine ⟨labels, l, seq, H, h2, hv, rfl, hs, h1, hn, fun M' hM' i j => ?_, ?_⟩
  · rw [hHM, hm M' hM']
  · rw [← h]
    have : M = fun i j => (H i j : K) := by funext i j; exact (hHM i j).symm
    rw [this]

/-- C25. The result of the maximum a posteriori fit is a valid chain over the given states for every
accepted hyper-parameter `H` (all ones when omitted) and every sequence: each entry is proportional
to the count plus `H - 1`, and a row without such weights is uniform. -/
theorem C25_map {possible sequence param : PyVal K} {c : MC K}
    (h : fitSequence (.str "map") possible sequence param = .ok c) :
    c.Valid ∧ ∃ (l : List (PyVal K)) (seq : List (Fin c.n)) (H : Matrix (Fin c.n) (Fin c.n) ℕ),
      sequence = .list l ∧ List.Forall₂ (fun v (i : Fin c.n) => Names c.states v i) l seq ∧
      (∀ i j, 1 ≤ H i j) ∧ (param = .none → ∀ i j, H i j = 1) ∧
      (∀ M : Matrix (Fin c.n) (Fin c.n) K, param = pyMatrix M → ∀ i j, (H i j : K) = M i j) ∧
      ∀ i j,
        (0 < ∑ l, (transitionCount seq i l + (H i l - 1)) →
          c.p i j = (transitionCount seq i j + (H i j - 1) : ℕ) /
            (∑ l, (transitionCount seq i l + (H i l - 1)) : ℕ)) ∧
        (∑ l, (transitionCount seq i l + (H i l - 1)) = 0 → c.p i j = 1 / c.n) := by
  obtain ⟨labels, l, seq, H, h2, hv, rfl, hs, h1, hn, hm, rfl⟩ := fitSequence_map_ok h
  have hn0 : (0:K) < labels.length := by
    have : 0 < labels.length := by omega
    exact_mod_cast this
  set W : Fin labels.length → Fin labels.length → ℕ :=
    fun i j => transitionCount seq i j + (H i j - 1) with hW
  have hWc : ∀ i j, ((W i j : ℕ) : K) = (transitionCount seq i j : K) + H i j - 1 := by
    intro i j
    simp only [hW]
    rw [Nat.cast_add, Nat.cast_sub (h1 i j), Nat.cast_one]
    ring
  have hsum : ∀ i, ((∑ l, W i l : ℕ) : K) =
      ((∑ l, transitionCount seq i l : ℕ) : K) + ∑ l, (H i l : K) - labels.length := by
    intro i
    rw [Nat.cast_sum, Finset.sum_congr rfl fun j _ => hWc i j]
    simp [Finset.sum_sub_distrib, Finset.sum_add_distrib]
  have hraw : ∀ i j, fitMapRaw labels.length (seq.map Fin.val) (fun i j => (H i j : K)) i j =
      if ∑ l, W i l = 0 then 1 / (labels.length : K) else (W i j : K) / (∑ l, W i l : ℕ) := by
    intro i j
    simp only [fitMapRaw, countMatrix_eq]
    by_cases hz : ∑ l, W i l = 0
    · have : ((∑ l, W i l : ℕ) : K) = 0 := by rw [hz, Nat.cast_zero]
      rw [if_pos hz, if_pos]
      rw [hsum] at this
      linarith
    · have hne : ((∑ l, W i l : ℕ) : K) ≠ 0 := Nat.cast_ne_zero.2 hz
      rw [if_neg hz, if_neg, hWc, hsum]
      intro he
      apply hne
      rw [hsum]
      linarith
  have hrs : IsStochastic (fitMapRaw labels.length (seq.map Fin.val) fun i j => (H i j : K)) := by
    constructor
    · intro i j
      rw [hraw]
      split <;> positivity
    · intro i
      rw [Finset.sum_congr rfl fun j _ => hraw i j]
      by_cases hz : ∑ l, W i l = 0
      · simp only [if_pos hz, Finset.sum_const, Finset.card_univ, Fintype.card_fin, nsmul_eq_mul]
        field_simp
      · have hne : ((∑ l, W i l : ℕ) : K) ≠ 0 := Nat.cast_ne_zero.2 hz
        simp only [if_neg hz]
        rw [← Finset.sum_div, ← Nat.cast_sum, div_self hne]
  have heq : fitMap labels.length (seq.map Fin.val) (fun i j => (H i j : K)) =
      fitMapRaw labels.length (seq.map Fin.val) fun i j => (H i j : K) := by
    funext i j
    have hex : ∃ l, fitMapRaw labels.length (seq.map Fin.val) (fun i j => (H i j : K)) i l ≠ 0 := by
      by_contra hall
      push Not at hall
      have := hrs.2 i
      simp [hall] at this
    unfold fitMap
    rw [normalize_fill_row hex, hrs.2 i, div_one]
  refine ⟨⟨h2, ?_, hv⟩, l, seq, H, rfl, hs, h1, hn, hm, ?_⟩
  · simp only [heq]; exact hrs
  · intro i j
    simp only [heq]
    refine ⟨fun hpos => ?_, fun hz => ?_⟩
    · rw [hraw, if_neg (by have : 0 < ∑ l, W i l := hpos; omega)]
    · rw [hraw, if_pos hz]

end api

/-- C24, optimality. No stochastic matrix gives the observed sequence a higher probability than the
unsmoothed estimate. -/
theorem C24_mle_optimal {possible sequence param : PyVal ℝ} {c : MC ℝ}
    (hpar : param = .none ∨ param = .bool false)
    (h : fitSequence (.str "mle") possible sequence param = .ok c) :
    ∃ (l : List (PyVal ℝ)) (seq : List (Fin c.n)), sequence = .list l ∧
      List.Forall₂ (fun v (i : Fin c.n) => Names c.states v i) l seq ∧
      ∀ Q : Fin c.n → Fin c.n → ℝ, IsStochastic Q → walkProb Q seq ≤ walkProb c.p seq := by
  obtain ⟨-, l, seq, hl, hs, hfreq, -⟩ := C24_mle h
  refine ⟨l, seq, hl, hs, fun Q hQ => ?_⟩
  rw [walkProb_eq_prod]
  refine (counts_optimal (transitionCount seq) hQ (P := c.p) ?_).trans_eq
    (walkProb_eq_prod c.p seq).symm
  intro i hi j
  exact (hfreq hpar i j).1 hi

/-- C25, optimality. The estimate is a mode of the posterior: no stochastic matrix has a larger
product of the likelihood and of the Dirichlet prior with parameters `H`. -/
theorem C25_map_optimal {possible sequence param : PyVal ℝ} {c : MC ℝ}
    (h : fitSequence (.str "map") possible sequence param = .ok c) :
    ∃ (l : List (PyVal ℝ)) (seq : List (Fin c.n)) (H : Matrix (Fin c.n) (Fin c.n) ℕ),
      sequence = .list l ∧ List.Forall₂ (fun v (i : Fin c.n) => Names c.states v i) l seq ∧
      (∀ i j, 1 ≤ H i j) ∧ (param = .none → ∀ i j, H i j = 1) ∧
      (∀ M : Matrix (Fin c.n) (Fin c.n) ℝ, param = pyMatrix M → ∀ i j, (H i j : ℝ) = M i j) ∧
      ∀ Q : Fin c.n → Fin c.n → ℝ, IsStochastic Q →
        walkProb Q seq * ∏ i, ∏ j, Q i j ^ (H i j - 1) ≤
          walkProb c.p seq * ∏ i, ∏ j, c.p i j ^ (H i j - 1) := by
  obtain ⟨-, l, seq, H, hl, hs, h1, hn, hm, hp⟩ := C25_map h
  refine ⟨l, seq, H, hl, hs, h1, hn, hm, fun Q hQ => ?_⟩
  have e : ∀ Q : Fin c.n → Fin c.n → ℝ, walkProb Q seq * ∏ i, ∏ j, Q i j ^ (H i j - 1) =
      ∏ i, ∏ j, Q i j ^ (transitionCount seq i j + (H i j - 1)) := by
    intro Q
    rw [walkProb_eq_prod]
    simp only [pow_add, Finset.prod_mul_distrib]
  rw [e Q]
  refine (counts_optimal (fun i j => transitionCount seq i j + (H i j - 1)) hQ (P := c.p) ?_).trans_eq
    (e c.p).symm
  intro i hi j
  exact (hp i j).1 hi

/-- C24 and C25, the hypotheses are met. -/
example : (fitMle 2 [0, 1, 0, 0] false : Matrix (Fin 2) (Fin 2) ℚ) = !![1 / 2, 1 / 2; 1, 0] := by
  decide +kernel
example : (fitMap 2 [0, 1, 0, 0] (fun _ _ => 2) : Matrix (Fin 2) (Fin 2) ℚ) =
    !![1 / 2, 1 / 2; 2 / 3, 1 / 3] := by decide +kernel
theorem C24_accepts : ∃ c, fitSequence (.str "mle" : PyVal ℚ) (.list [.str "a", .str "b"])
    (.list [.int 0, .int 1, .int 0, .int 0]) .none = .ok c := ⟨_, rfl⟩
theorem C25_accepts : ∃ c, fitSequence (.str "map" : PyVal ℚ) (.list [.str "a", .str "b"])
    (.list [.int 0, .int 1, .int 0, .int 0]) .none = .ok c := ⟨_, rfl⟩

end Verif
