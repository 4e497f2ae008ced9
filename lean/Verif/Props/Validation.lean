import Verif.Spec.Valid
import Verif.Lemmas.Validation
import Std.Data.String.ToNat
import Mathlib.Algebra.Order.Field.Rat
import Mathlib.Tactic.NormNum
import Mathlib.Tactic.FinCases
import Mathlib.LinearAlgebra.Matrix.Notation

/-!
# Properties C01-C05, C71: construction and validation
-/

set_option linter.unusedSectionVars false

namespace Verif

variable {K : Type} [Field K] [LinearOrder K] [IsStrictOrderedRing K]

/-! ## C71: generated labels -/

theorem toList_repr_ne_nil (n : ℕ) : (Nat.repr n).toList ≠ [] := by
  simp [Nat.repr, Nat.toDigits_ne_nil]

/-- C71. Generated labels are pairwise distinct, non-blank, there is one per state, and the labels
are the prefix followed by the numbers from one. -/
theorem C71_create_labels (count : ℕ) (pre : String) :
    (createLabels count pre).length = count ∧ (createLabels count pre).Nodup ∧
      (∀ s ∈ createLabels count pre, nonBlank s = true) ∧
      ∀ k, 1 ≤ k → k ≤ count → (createLabels count pre)[k - 1]? = some (pre ++ toString k) := by
  refine ⟨by simp [createLabels], ?_, ?_, ?_⟩
  · refine List.Nodup.map ?_ List.nodup_range
    intro a b h
    have h' := congrArg String.toList h
    simp only [String.toList_append, List.append_cancel_left_eq, String.toList_inj] at h'
    have := Nat.repr_injective h'
    omega
  · intro s hs
    simp only [createLabels, List.mem_map, List.mem_range] at hs
    obtain ⟨i, _, rfl⟩ := hs
    simp only [nonBlank, String.toList_append, List.any_append, Bool.or_eq_true]
    right
    obtain ⟨c, l, hc⟩ := List.exists_cons_of_ne_nil (toList_repr_ne_nil (i + 1))
    have hd : c.isDigit = true := by
      refine Nat.isDigit_of_mem_toDigits (b := 10) (n := i + 1) (by norm_num) (by norm_num) ?_
      have : (Nat.repr (i + 1)).toList = Nat.toDigits 10 (i + 1) := by simp [Nat.repr]
      rw [← this, hc]; simp
    change (Nat.repr (i + 1)).toList.any _ = true
    rw [hc, List.any_cons]
    simp only [Bool.or_eq_true, Bool.not_eq_true']
    left
    simp only [Char.isDigit, Bool.and_eq_true, decide_eq_true_eq] at hd
    have h1 : 48 ≤ c.toNat := UInt32.le_iff_toNat_le.1 hd.1
    have h2 : c.toNat ≤ 57 := UInt32.le_iff_toNat_le.1 hd.2
    simp only [pyIsSpace, Bool.or_eq_false_iff, Bool.and_eq_false_iff, decide_eq_false_iff_not,
      beq_eq_false_iff_ne]
    refine ⟨⟨⟨⟨⟨⟨⟨⟨⟨?_, ?_⟩, ?_⟩, ?_⟩, ?_⟩, ?_⟩, ?_⟩, ?_⟩, ?_⟩, ?_⟩ <;> omega
  · intro k h1 h2
    have : k - 1 < count := by omega
    simp [createLabels, this, Nat.sub_add_cancel h1]

example : createLabels 12 "P" =
    ["P1", "P2", "P3", "P4", "P5", "P6", "P7", "P8", "P9", "P10", "P11", "P12"] := by decide

/-! ## C01: the constructor -/

/-- The documented requirements on a transition matrix: at least two states, entries in `[0,1]`,
row sums equal to one up to the tolerance `1e-8 + 1e-5`. -/
def AcceptedMatrix {n : ℕ} (M : Matrix (Fin n) (Fin n) K) : Prop :=
  2 ≤ n ∧ (∀ i j, 0 ≤ M i j ∧ M i j ≤ 1) ∧ ∀ i, |∑ j, M i j - 1| ≤ 1 / 10 ^ 8 + 1 / 10 ^ 5

theorem sigma_toMat {rows : List (List (Flt K))} {n : ℕ} (h : rows.length = n) :
    (⟨rows.length, toMat rows rows.length rows.length⟩ : (n : ℕ) × Matrix (Fin n) (Fin n) K) =
      ⟨n, toMat rows n n⟩ := by subst h; rfl

/-- `validate_transition_matrix` accepts only arrays that meet the documented requirements. -/
theorem validateTransitionMatrix_sound {v : PyVal K} {size : Option ℕ}
    {r : (n : ℕ) × Matrix (Fin n) (Fin n) K} (h : validateTransitionMatrix v size = .ok r) :
    AcceptedMatrix r.2 ∧ ∀ n, size = some n → r.1 = n := by
  unfold validateTransitionMatrix at h
  split at h
  · next rows _ =>
    rw [R.ite_throw, R.ite_throw, R.bind_ok] at h
    obtain ⟨h1, h2, p, h3, h4⟩ := h
    rw [R.pure_ok] at h4
    subst h4
    push Not at h1
    obtain ⟨h5, h6⟩ := h1
    rw [checkStochastic_ok] at h3
    obtain ⟨h7, h8, rfl⟩ := h3
    refine ⟨⟨h5, fun i j => ?_, fun i => ?_⟩, ?_⟩
    · simp only at i j ⊢
      have hr : rows[i] ∈ rows := List.getElem_mem _
      have hw : (rows[i]).length = rows.length := by
        unfold hasWidth at h6
        rw [List.all_eq_true] at h6
        simpa using h6 _ hr
      have hx := h7 _ hr _ (List.getElem_mem (show (j : ℕ) < (rows[i]).length by omega))
      obtain ⟨y, hy, h0, h1⟩ := inUnit_iff.1 hx
      have : toMat rows rows.length rows.length i j = y := by
        simp only [toMat, List.getD_eq_getElem?_getD, Fin.is_lt, List.getElem?_eq_getElem,
          Option.getD_some]
        have hj : (j : ℕ) < (rows[(i : ℕ)]).length := by simpa using (show (j : ℕ) < (rows[i]).length by omega)
        rw [List.getElem?_eq_getElem hj]
        simp only [Option.getD_some]
        have hy' : rows[(i : ℕ)][(j : ℕ)] = Flt.fin y := by simpa using hy
        rw [hy']; rfl
      rw [this]; exact ⟨h0, h1⟩
    · simpa using h8 i
    · intro n hn
      subst hn
      simpa using h2
  · simp at h
  · simp at h

theorem labelsOrDefault_sound {v : PyVal K} {n : ℕ} {pre : String} {l : List String}
    (h : labelsOrDefault v n pre = .ok l) : ValidLabels n l := by
  unfold labelsOrDefault at h
  split at h
  · rw [R.pure_ok] at h; subst h; exact ⟨(C71_create_labels n pre).1, (C71_create_labels n pre).2.1, (C71_create_labels n pre).2.2.1⟩
  · unfold validateLabelsInput at h
    split at h
    · rw [R.ite_throw] at h
      simp only at h
      rw [R.ite_throw, R.ite_throw, R.ite_throw, R.pure_ok] at h
      obtain ⟨h1, h2, h3, h4, rfl⟩ := h
      simp only [not_not] at h1 h3 h4
      refine ⟨h4, h3, ?_⟩
      intro s hs
      rw [List.mem_map] at hs
      obtain ⟨v, hv, rfl⟩ := hs
      obtain ⟨s, rfl, hs⟩ := (all_isString_iff.1 h1) v hv
      exact hs
    · simp at h

/-- C01 (soundness). Whatever is passed to the constructor by ordinary user code, a chain that is
built has at least two states, entries in `[0,1]`, rows summing to one within tolerance, and `n`
distinct non-blank labels. -/
theorem C01_constructed_chain_is_valid {caller : String} (hc : caller ∉ mcGenerators)
    {p states : PyVal K} {c : MC K} (h : mcInit caller p states = .ok c) :
    AcceptedMatrix c.p ∧ ValidLabels c.n c.states := by
  unfold mcInit at h
  rw [if_pos hc, R.bind_ok] at h
  obtain ⟨⟨n, m⟩, h1, h2⟩ := h
  simp only [R.bind_ok, R.pure_ok] at h2
  obtain ⟨l, h3, rfl⟩ := h2
  exact ⟨(validateTransitionMatrix_sound h1).1, labelsOrDefault_sound h3⟩

theorem validateLabelsInput_pyStrings {names : List String} {n : ℕ} {l : List String}
    (hn : 2 ≤ n) :
    validateLabelsInput (pyStrings names : PyVal K) (some n) = .ok l ↔
      ValidLabels n names ∧ l = names := by
  unfold validateLabelsInput pyStrings ValidLabels
  have hm : List.map (PyVal.asStr ∘ (PyVal.str : String → PyVal K)) names = names := by
    rw [show (PyVal.asStr ∘ (PyVal.str : String → PyVal K)) = id from rfl]; simp
  simp only [List.map_map, hm]
  rw [R.ite_throw, R.ite_throw, R.ite_throw, R.ite_throw, R.pure_ok]
  simp only [not_not, all_isString_iff, List.mem_map, forall_exists_index, and_imp,
    forall_apply_eq_imp_iff₂, PyVal.str.injEq, exists_eq_left', ne_eq]
  constructor
  · rintro ⟨a, b, c, d, rfl⟩; exact ⟨⟨d, c, a⟩, rfl⟩
  · rintro ⟨⟨a, b, c⟩, rfl⟩; exact ⟨c, by omega, b, a, rfl⟩

/-- The numeric part of C01, for a matrix given as a list of lists or as an array. -/
theorem validateTransitionMatrix_iff {n : ℕ} (M : Matrix (Fin n) (Fin n) K) (v : PyVal K)
    (hv : v = pyMatrix M ∨ v = pyArray M) (r : (n : ℕ) × Matrix (Fin n) (Fin n) K) :
    validateTransitionMatrix v none = .ok r ↔ AcceptedMatrix M ∧ r = ⟨n, M⟩ := by
  have main : ∀ rows : List (List (Flt K)),
      rows = (List.ofFn fun i => List.ofFn fun j => Flt.fin (M i j)) →
      extractNumeric v = some (.mat rows) →
      (validateTransitionMatrix v none = .ok r ↔ AcceptedMatrix M ∧ r = ⟨n, M⟩) := by
    intro rows hrows hv
    have hlen : rows.length = n := by simp [hrows]
    unfold validateTransitionMatrix
    rw [hv]
    simp only
    rw [R.ite_throw, R.ite_throw, R.bind_ok]
    have hw : hasWidth rows rows.length = true := by
      rw [hlen, hrows]; simp [hasWidth]
    rw [hw, hlen]
    simp only [not_true_eq_false, or_false, not_lt, Option.any_none, Bool.false_eq_true,
      not_false_eq_true, true_and, R.pure_ok]
    have hM : toMat rows n n = M := by rw [hrows, toMat_ofFn]
    constructor
    · rintro ⟨h1, p, h2, rfl⟩
      rw [checkStochastic_ok] at h2
      obtain ⟨h3, h4, rfl⟩ := h2
      rw [hM] at h4 ⊢
      refine ⟨⟨h1, fun i j => ?_, fun i => ?_⟩, rfl⟩
      · have := h3 (List.ofFn fun j => Flt.fin (M i j)) (by rw [hrows]; simp) (.fin (M i j))
          (by simp)
        simpa [Flt.inUnit] using this
      · simpa using h4 i
    · rintro ⟨⟨h1, h2, h3⟩, rfl⟩
      refine ⟨h1, M, ?_, rfl⟩
      rw [checkStochastic_ok]
      refine ⟨?_, ?_, hM.symm⟩
      · rw [hrows]
        intro r hr x hx
        rw [List.mem_ofFn] at hr
        obtain ⟨i, rfl⟩ := hr
        rw [List.mem_ofFn] at hx
        obtain ⟨j, rfl⟩ := hx
        simpa [Flt.inUnit] using h2 i j
      · rw [hM]; simpa using h3
  rcases hv with rfl | rfl
  · cases n with
    | zero =>
      have : (pyMatrix M : PyVal K) = .list [] := by simp [pyMatrix]
      rw [this]
      simp [validateTransitionMatrix, extractNumeric, AcceptedMatrix]
    | succ n => exact main _ rfl (extractNumeric_pyMatrix M)
  · exact main _ rfl (extractNumeric_pyArray M)

/-- C01. For every square matrix of floats (as nested lists or as an array) and every list of
labels, ordinary user code obtains a chain exactly when the documented requirements hold, and the
chain then exposes exactly this matrix and these labels. -/
theorem C01_constructor_iff {caller : String} (hc : caller ∉ mcGenerators) {n : ℕ}
    (M : Matrix (Fin n) (Fin n) K) (v : PyVal K) (hv : v = pyMatrix M ∨ v = pyArray M)
    (names : List String) (c : MC K) :
    mcInit caller v (pyStrings names) = .ok c ↔
      AcceptedMatrix M ∧ ValidLabels n names ∧ c = ⟨n, M, names⟩ := by
  unfold mcInit
  rw [if_pos hc, R.bind_ok]
  constructor
  · rintro ⟨r, h1, h2⟩
    rw [validateTransitionMatrix_iff M v hv] at h1
    obtain ⟨h3, rfl⟩ := h1
    simp only [R.bind_ok, R.pure_ok] at h2
    obtain ⟨l, h4, rfl⟩ := h2
    have h4' := (validateLabelsInput_pyStrings (K := K) h3.1 (l := l) (names := names)).1
      (by simpa [labelsOrDefault, pyStrings] using h4)
    exact ⟨h3, h4'.1, by rw [h4'.2]⟩
  · rintro ⟨h3, h4, rfl⟩
    refine ⟨⟨n, M⟩, (validateTransitionMatrix_iff M v hv _).2 ⟨h3, rfl⟩, ?_⟩
    simp only [R.bind_ok, R.pure_ok]
    refine ⟨names, ?_, rfl⟩
    have := (validateLabelsInput_pyStrings (K := K) h3.1 (l := names) (names := names)).2 ⟨h4, rfl⟩
    simpa [labelsOrDefault, pyStrings] using this

/-- C01 with default labels. -/
theorem C01_constructor_default_labels {caller : String} (hc : caller ∉ mcGenerators) {n : ℕ}
    (M : Matrix (Fin n) (Fin n) K) (v : PyVal K) (hv : v = pyMatrix M ∨ v = pyArray M) (c : MC K) :
    mcInit caller v .none = .ok c ↔ AcceptedMatrix M ∧ c = ⟨n, M, createLabels n ""⟩ := by
  unfold mcInit
  rw [if_pos hc, R.bind_ok]
  constructor
  · rintro ⟨r, h1, h2⟩
    rw [validateTransitionMatrix_iff M v hv] at h1
    obtain ⟨h3, rfl⟩ := h1
    simp only [R.bind_ok, R.pure_ok, labelsOrDefault] at h2
    obtain ⟨l, rfl, rfl⟩ := h2
    exact ⟨h3, rfl⟩
  · rintro ⟨h3, rfl⟩
    refine ⟨⟨n, M⟩, (validateTransitionMatrix_iff M v hv _).2 ⟨h3, rfl⟩, ?_⟩
    simp [labelsOrDefault]

/-- C01: arrays that are not square are rejected. -/
theorem C01_rejects_non_square {caller : String} (hc : caller ∉ mcGenerators) {m n : ℕ}
    (hmn : m ≠ n) (M : Matrix (Fin m) (Fin n) K) (states : PyVal K) (c : MC K) :
    mcInit caller (pyArray M) states ≠ .ok c := by
  unfold mcInit
  rw [if_pos hc]
  intro h
  rw [R.bind_ok] at h
  obtain ⟨r, h1, -⟩ := h
  unfold validateTransitionMatrix at h1
  rw [extractNumeric_pyArray] at h1
  simp only at h1
  rw [R.ite_throw] at h1
  have h2 := h1.1
  simp only [List.length_ofFn, not_or, not_not, hasWidth, List.all_eq_true, List.mem_ofFn] at h2
  have hm : 0 < m := by omega
  have := h2.2 _ ⟨⟨0, hm⟩, rfl⟩
  simp at this
  exact hmn this.symm

/-- A matrix meeting every requirement, used to show that the hypotheses are satisfiable. -/
def weather : Matrix (Fin 2) (Fin 2) ℚ := !![9/10, 1/10; 1/2, 1/2]

theorem weather_accepted : AcceptedMatrix weather := by
  refine ⟨le_rfl, ?_, ?_⟩
  · intro i j; fin_cases i <;> fin_cases j <;> simp [weather] <;> norm_num
  · intro i; fin_cases i <;> simp [weather] <;> norm_num

example : ∃ c, mcInit "main" (pyMatrix weather) (pyStrings ["sunny", "rainy"]) = .ok c :=
  ⟨_, (C01_constructor_iff (by decide) weather _ (Or.inl rfl) _ _).2
    ⟨weather_accepted, ⟨rfl, by decide, by decide⟩, rfl⟩⟩

/-! ## C02: bypassing validation -/

/-- In a function bearing one of the generator names nothing at all is checked. -/
theorem mcInit_bypass {caller : String} (hc : caller ∈ mcGenerators) {n : ℕ}
    (M : Matrix (Fin n) (Fin n) K) (names : List String) (hn : names.length ≤ n) :
    mcInit caller (pyArray M) (pyStrings names) = .ok ⟨n, M, names⟩ := by
  have hm : List.map (PyVal.asStr ∘ (PyVal.str : String → PyVal K)) names = names := by
    rw [show (PyVal.asStr ∘ (PyVal.str : String → PyVal K)) = id from rfl]; simp
  simp only [mcInit, hc, not_true_eq_false, if_false, pyStrings, pyArray]
  rw [if_pos ⟨by simp [hasWidth], by simpa using hn⟩]
  have h1 := sigma_toMat (K := K) (rows := List.ofFn fun i => List.ofFn fun j => .fin (M i j))
    (n := n) (by simp)
  rw [toMat_ofFn] at h1
  have h2 := congrArg (fun s : (n : ℕ) × Matrix (Fin n) (Fin n) K => (⟨s.1, s.2, names⟩ : MC K)) h1
  simp only [List.map_map, hm]
  exact congrArg Except.ok h2

/-- C02 is violated by the code: a user function that happens to be called `identity` obtains a
"chain" whose matrix is not stochastic at all. -/
theorem C02_validation_can_be_bypassed :
    ∃ (caller : String) (p states : PyVal ℚ) (c : MC ℚ),
      mcInit caller p states = .ok c ∧ ¬ AcceptedMatrix c.p :=
  ⟨"identity", _, _, _, mcInit_bypass (by decide) !![(-3 : ℚ), 0; 7, 5] ["a", "b"] le_rfl, by
    intro h
    have := (h.2.1 0 0).1
    norm_num at this⟩

/-- C02 (partial). Validation does run for every caller whose name is not one of the generator
names. Missing from the full claim: callers that do bear such a name. -/
theorem C02_validation_runs_partial {caller : String} (hc : caller ∉ mcGenerators)
    {p states : PyVal K} {c : MC K} (h : mcInit caller p states = .ok c) : AcceptedMatrix c.p :=
  (C01_constructed_chain_is_valid hc h).1

example : "main" ∉ mcGenerators ∧ "<module>" ∉ mcGenerators := by decide

/-- C02. The callers for which the validation does not run are exactly the functions with one of these names. -/
theorem C02_bypass_iff (caller : String) :
    (∃ (p states : PyVal K) (c : MC K), mcInit caller p states = .ok c ∧ ¬ AcceptedMatrix c.p) ↔
      caller ∈ ["aggregate", "closest_reversible", "lump", "merge_with", "to_bounded_chain", "to_bounded",
        "to_canonical_form", "to_canonical", "to_lazy_chain", "to_lazy", "to_nth_order", "to_nth",
        "to_subchain", "to_sub", "approximation", "birth_death", "dirichlet_process", "fit_function",
        "fit_sequence", "from_dictionary", "from_file", "from_graph", "from_matrix", "gamblers_ruin",
        "identity", "population_genetics_model", "random", "random_distribution", "urn_model"] := by
  constructor
  · rintro ⟨p, states, c, h, hn⟩
    by_contra hc
    exact hn (C02_validation_runs_partial hc h)
  · intro hc
    refine ⟨_, _, _, mcInit_bypass (show caller ∈ mcGenerators from hc) !![(-3 : K), 0; 7, 5] ["a", "b"] le_rfl, ?_⟩
    intro h
    have := (h.2.1 0 0).1
    norm_num at this

end Verif
