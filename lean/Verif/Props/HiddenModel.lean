import Verif.Props.Validation

/-!
# Construction of hidden Markov models (C75)
-/

set_option linter.unusedSectionVars false

namespace Verif

variable {K : Type} [Field K] [LinearOrder K] [IsStrictOrderedRing K]

/-- The documented requirements on an emission matrix: at least two columns, entries in `[0,1]`, row
sums equal to one up to the tolerance. -/
def AcceptedEmission {n k : ℕ} (M : Matrix (Fin n) (Fin k) K) : Prop :=
  2 ≤ k ∧ (∀ i j, 0 ≤ M i j ∧ M i j ≤ 1) ∧ ∀ i, |∑ j, M i j - 1| ≤ 1 / 10 ^ 8 + 1 / 10 ^ 5

theorem validateEmissionMatrix_sound {v : PyVal K} {size : ℕ}
    {r : (k : ℕ) × Matrix (Fin size) (Fin k) K} (h : validateEmissionMatrix v size = .ok r) :
    AcceptedEmission r.2 := by
  unfold validateEmissionMatrix at h
  split at h
  · next rows _ =>
    simp only at h
    rw [R.ite_throw, R.bind_ok] at h
    obtain ⟨h1, p, h3, h4⟩ := h
    rw [R.pure_ok] at h4
    subst h4
    push Not at h1
    obtain ⟨h5, h6, h7⟩ := h1
    subst h5
    rw [checkStochastic_ok] at h3
    obtain ⟨h8, h9, rfl⟩ := h3
    refine ⟨h6, fun i j => ?_, fun i => ?_⟩
    · have hr : rows[i] ∈ rows := List.getElem_mem _
      have hw : (rows[i]).length = (rows.headD []).length := by
        unfold hasWidth at h7
        rw [List.all_eq_true] at h7
        simpa using h7 _ hr
      have hjj : (j : ℕ) < (rows.headD []).length := j.isLt
      have hj : (j : ℕ) < (rows[(i : ℕ)]).length := by
        have : rows[(i : ℕ)] = rows[i] := rfl
        rw [this, hw]
        exact hjj
      have hx := h8 _ hr _ (List.getElem_mem (show (j : ℕ) < (rows[i]).length from hj))
      obtain ⟨y, hy, h0, h1⟩ := inUnit_iff.1 hx
      have : toMat rows rows.length (rows.headD []).length i j = y := by
        simp only [toMat, List.getD_eq_getElem?_getD, Fin.is_lt, List.getElem?_eq_getElem,
          Option.getD_some]
        rw [List.getElem?_eq_getElem hj]
        simp only [Option.getD_some]
        have hy' : rows[(i : ℕ)][(j : ℕ)] = Flt.fin y := by simpa using hy
        rw [hy']; rfl
      exact ⟨le_of_le_of_eq h0 this.symm, le_of_eq_of_le this h1⟩
    · simpa using h9 i
  · simp at h
  · simp at h

theorem validateEmissionMatrix_iff {n k : ℕ} (hn : 0 < n) (M : Matrix (Fin n) (Fin k) K) (v : PyVal K)
    (hv : v = pyMatrix M ∨ v = pyArray M) (r : (k : ℕ) × Matrix (Fin n) (Fin k) K) :
    validateEmissionMatrix v n = .ok r ↔ AcceptedEmission M ∧ r = ⟨k, M⟩ := by
  have main : ∀ rows : List (List (Flt K)),
      rows = (List.ofFn fun i => List.ofFn fun j => Flt.fin (M i j)) →
      extractNumeric v = some (.mat rows) →
      (validateEmissionMatrix v n = .ok r ↔ AcceptedEmission M ∧ r = ⟨k, M⟩) := by
    intro rows hrows hv
    have hlen : rows.length = n := by simp [hrows]
    have hhead : (rows.headD []).length = k := by
      obtain ⟨m, rfl⟩ : ∃ m, n = m + 1 := ⟨n - 1, by omega⟩
      rw [hrows]
      simp [List.ofFn_succ]
    unfold validateEmissionMatrix
    rw [hv]
    simp only
    rw [R.ite_throw, R.bind_ok]
    have hw : hasWidth rows k = true := by
      rw [hrows]; simp [hasWidth]
    have hM : toMat rows n k = M := by rw [hrows, toMat_ofFn]
    have hin : ∀ i j, ∃ r ∈ rows, Flt.fin (M i j) ∈ r := fun i j =>
      ⟨List.ofFn fun j => Flt.fin (M i j), by rw [hrows]; simp, by simp⟩
    have hall : ∀ r ∈ rows, ∀ x ∈ r, ∃ i j, Flt.fin (M i j) = x := by
      rw [hrows]
      intro r hr x hx
      rw [List.mem_ofFn] at hr
      obtain ⟨i, rfl⟩ := hr
      rw [List.mem_ofFn] at hx
      obtain ⟨j, rfl⟩ := hx
      exact ⟨i, j, rfl⟩
    clear hrows
    subst hhead
    rw [hw, hlen]
    simp only [ne_eq, not_true_eq_false, or_false, false_or, not_lt, R.pure_ok]
    constructor
    · rintro ⟨h1, p, h2, rfl⟩
      rw [checkStochastic_ok] at h2
      obtain ⟨h3, h4, rfl⟩ := h2
      rw [hM] at h4 ⊢
      refine ⟨⟨h1, fun i j => ?_, fun i => ?_⟩, rfl⟩
      · obtain ⟨r, hr, hx⟩ := hin i j
        have := h3 r hr _ hx
        simpa [Flt.inUnit] using this
      · simpa using h4 i
    · rintro ⟨⟨h1, h2, h3⟩, rfl⟩
      refine ⟨h1, M, ?_, rfl⟩
      rw [checkStochastic_ok]
      refine ⟨?_, ?_, hM.symm⟩
      · intro r hr x hx
        obtain ⟨i, j, rfl⟩ := hall r hr x hx
        simpa [Flt.inUnit] using h2 i j
      · rw [hM]; simpa using h3
  rcases hv with rfl | rfl
  · obtain ⟨m, rfl⟩ : ∃ m, n = m + 1 := ⟨n - 1, by omega⟩
    exact main _ rfl (extractNumeric_pyMatrix M)
  · exact main _ rfl (extractNumeric_pyArray M)

/-- C75 (soundness). Whatever is passed to the constructor by ordinary user code, a model that is
built has accepted transition and emission matrices, one distinct non-blank name per state and per
symbol, and no name is shared. -/
theorem C75_constructed_model_is_valid {caller : String} (hc : caller ∉ hmmGenerators)
    {p e states symbols : PyVal K} {m : HMM K} (h : hmmInit caller p e states symbols = .ok m) :
    AcceptedMatrix m.p ∧ AcceptedEmission m.e ∧ ValidLabels m.n m.states ∧
      ValidLabels m.k m.symbols ∧ List.Disjoint m.states m.symbols := by
  unfold hmmInit at h
  rw [if_pos hc, R.bind_ok] at h
  obtain ⟨⟨n, mp⟩, h1, h⟩ := h
  simp only [R.bind_ok] at h
  obtain ⟨⟨k, me⟩, h2, ls, h3, lsy, h4, h⟩ := h
  by_cases hd : (ls.any fun s => decide (s ∈ lsy)) = true
  · rw [if_pos hd] at h
    cases h
  · rw [if_neg hd] at h
    rw [R.pure_ok] at h
    subst h
    refine ⟨(validateTransitionMatrix_sound h1).1, validateEmissionMatrix_sound h2,
      labelsOrDefault_sound h3, labelsOrDefault_sound h4, fun x hx hx' => hd ?_⟩
    rw [List.any_eq_true]
    exact ⟨x, hx, decide_eq_true hx'⟩

/-- C75. For all matrices of floats and all lists of names, ordinary user code obtains a model exactly
when the documented requirements hold, and the model then exposes exactly these matrices and names. -/
theorem C75_constructor_iff {caller : String} (hc : caller ∉ hmmGenerators) {n k : ℕ}
    (P : Matrix (Fin n) (Fin n) K) (E : Matrix (Fin n) (Fin k) K) (p e : PyVal K)
    (hp : p = pyMatrix P ∨ p = pyArray P) (he : e = pyMatrix E ∨ e = pyArray E)
    (states symbols : List String) (m : HMM K) :
    hmmInit caller p e (pyStrings states) (pyStrings symbols) = .ok m ↔
      AcceptedMatrix P ∧ AcceptedEmission E ∧ ValidLabels n states ∧ ValidLabels k symbols ∧
        List.Disjoint states symbols ∧ m = ⟨n, k, P, E, states, symbols⟩ := by
  have hdis : ∀ a b : List String, (a.any fun s => decide (s ∈ b)) = true ↔ ¬ List.Disjoint a b := by
    intro a b
    rw [List.any_eq_true, List.disjoint_left]
    push Not
    simp
  unfold hmmInit
  rw [if_pos hc, R.bind_ok]
  constructor
  · rintro ⟨r, h1, h⟩
    rw [validateTransitionMatrix_iff P p hp] at h1
    obtain ⟨h3, rfl⟩ := h1
    simp only [R.bind_ok] at h
    obtain ⟨r2, h2, ls, h5, lsy, h6, h⟩ := h
    rw [validateEmissionMatrix_iff (by have := h3.1; omega) E e he] at h2
    obtain ⟨h4, rfl⟩ := h2
    have h5' := (validateLabelsInput_pyStrings (K := K) h3.1 (l := ls) (names := states)).1
      (by simpa [labelsOrDefault, pyStrings] using h5)
    have h6' := (validateLabelsInput_pyStrings (K := K) h4.1 (l := lsy) (names := symbols)).1
      (by simpa [labelsOrDefault, pyStrings] using h6)
    obtain ⟨h5a, rfl⟩ := h5'
    obtain ⟨h6a, rfl⟩ := h6'
    by_cases hd : (ls.any fun s => decide (s ∈ lsy)) = true
    · rw [if_pos hd] at h
      cases h
    · rw [if_neg hd] at h
      rw [R.pure_ok] at h
      rw [hdis, not_not] at hd
      exact ⟨h3, h4, h5a, h6a, hd, h.symm⟩
  · rintro ⟨h3, h4, h5, h6, h7, rfl⟩
    refine ⟨⟨n, P⟩, (validateTransitionMatrix_iff P p hp _).2 ⟨h3, rfl⟩, ?_⟩
    simp only [R.bind_ok]
    have h5' := (validateLabelsInput_pyStrings (K := K) h3.1 (l := states) (names := states)).2 ⟨h5, rfl⟩
    have h6' := (validateLabelsInput_pyStrings (K := K) h4.1 (l := symbols) (names := symbols)).2 ⟨h6, rfl⟩
    refine ⟨⟨k, E⟩, (validateEmissionMatrix_iff (by have := h3.1; omega) E e he _).2 ⟨h4, rfl⟩, states,
      by simpa [labelsOrDefault, pyStrings] using h5', symbols,
      by simpa [labelsOrDefault, pyStrings] using h6', ?_⟩
    rw [if_neg (by rw [hdis, not_not]; exact h7)]
    rfl

/-- C75 with default names: they are accepted because the prefixes differ. -/
theorem C75_default_names {caller : String} (hc : caller ∉ hmmGenerators) {n k : ℕ}
    (P : Matrix (Fin n) (Fin n) K) (E : Matrix (Fin n) (Fin k) K) (p e : PyVal K)
    (hp : p = pyMatrix P ∨ p = pyArray P) (he : e = pyMatrix E ∨ e = pyArray E) (m : HMM K) :
    hmmInit caller p e .none .none = .ok m ↔
      AcceptedMatrix P ∧ AcceptedEmission E ∧
        m = ⟨n, k, P, E, createLabels n "P", createLabels k "E"⟩ := by
  have hdis : ¬ ((createLabels n "P").any fun s => decide (s ∈ createLabels k "E")) = true := by
    rw [List.any_eq_true]
    rintro ⟨x, hx, hx'⟩
    simp only [createLabels, List.mem_map, decide_eq_true_eq] at hx hx'
    obtain ⟨i, -, rfl⟩ := hx
    obtain ⟨j, -, h⟩ := hx'
    have := congrArg String.toList h
    simp at this
  unfold hmmInit
  rw [if_pos hc, R.bind_ok]
  constructor
  · rintro ⟨r, h1, h⟩
    rw [validateTransitionMatrix_iff P p hp] at h1
    obtain ⟨h3, rfl⟩ := h1
    simp only [R.bind_ok, labelsOrDefault, R.pure_ok] at h
    obtain ⟨r2, h2, ls, rfl, lsy, rfl, h⟩ := h
    rw [validateEmissionMatrix_iff (by have := h3.1; omega) E e he] at h2
    obtain ⟨h4, rfl⟩ := h2
    rw [if_neg hdis, R.pure_ok] at h
    exact ⟨h3, h4, h.symm⟩
  · rintro ⟨h3, h4, rfl⟩
    refine ⟨⟨n, P⟩, (validateTransitionMatrix_iff P p hp _).2 ⟨h3, rfl⟩, ?_⟩
    simp only [R.bind_ok, labelsOrDefault, R.pure_ok]
    refine ⟨⟨k, E⟩, (validateEmissionMatrix_iff (by have := h3.1; omega) E e he _).2 ⟨h4, rfl⟩, _, rfl,
      _, rfl, ?_⟩
    rw [if_neg hdis]
    rfl

/-- The hypotheses are met by a concrete call. -/
theorem C75_accepts : ∃ m, hmmInit "user" (pyMatrix (fun _ _ => 1 / 2 : Matrix (Fin 2) (Fin 2) ℚ))
    (pyMatrix (fun _ _ => 1 / 4 : Matrix (Fin 2) (Fin 4) ℚ)) (pyStrings ["a", "b"])
    (pyStrings ["u", "v", "w", "x"]) = .ok m := by
  refine ⟨_, (C75_constructor_iff (by decide) _ _ _ _ (Or.inl rfl) (Or.inl rfl) _ _ _).2
    ⟨⟨by decide, by decide +kernel, by decide +kernel⟩, ⟨by decide, by decide +kernel, by decide +kernel⟩,
      ⟨by decide, by decide, by decide⟩, ⟨by decide, by decide, by decide⟩, by rw [List.disjoint_left]; decide, rfl⟩⟩

/-- C02. The same for hidden models. -/
theorem C02_hidden_bypass_iff (caller : String) :
    (∃ (p e states symbols : PyVal K) (m : HMM K), hmmInit caller p e states symbols = .ok m ∧
      ¬ AcceptedMatrix m.p) ↔
      caller ∈ ["restrict", "estimate", "fit", "from_dictionary", "from_file", "from_graph", "from_matrices",
        "random"] := by
  constructor
  · rintro ⟨p, e, states, symbols, m, h, hn⟩
    by_contra hc
    exact hn (C75_constructed_model_is_valid hc h).1
  · intro hc
    have hc' : ¬ caller ∉ hmmGenerators := not_not.2 hc
    have key : hmmInit caller (.array (.mat [[.fin (-3), .fin 0], [.fin 7, .fin 5]])) (.array (.mat [[.fin 1], [.fin 1]]))
        (.list []) (.list []) = .ok (⟨2, 1, toMat [[.fin (-3), .fin 0], [.fin 7, .fin 5]] 2 2,
          toMat [[.fin 1], [.fin 1]] 2 1, [], []⟩ : HMM K) := by
      unfold hmmInit
      rw [if_neg hc']
      simp only
      rw [if_pos ⟨by simp [hasWidth], rfl, by simp [hasWidth], by simp, by simp⟩]
      rfl
    refine ⟨_, _, _, _, _, key, fun h => ?_⟩
    have h0 : (0 : K) ≤ -3 := (h.2.1 (0 : Fin 2) (0 : Fin 2)).1
    linarith

end Verif
