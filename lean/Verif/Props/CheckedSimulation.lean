import Verif.Model.Checked
import Verif.Props.AcceptedHidden
import Verif.Props.HiddenModel

/-!
# Chains that the constructor accepts but the generator does not (C153)

The constructor accepts rows that sum to one up to about `1e-5`. The generator of numpy, which is called with the
rows as weights, accepts sums that differ from one by at most `2^-26`, about `1.5e-8`.
-/

namespace Verif

open Finset

set_option linter.unusedSectionVars false

variable {K : Type} [Field K] [LinearOrder K] [IsStrictOrderedRing K]

theorem choiceAccepts_iff {n : ℕ} {w : Fin n → K} :
    choiceAccepts w = true ↔ (∀ j, 0 ≤ w j) ∧ |∑ j, w j - 1| ≤ 1 / 2 ^ 26 := by
  unfold choiceAccepts
  rw [decide_eq_true_eq]

/-- The loop returns exactly if the weights of all states that are left are accepted. -/
theorem checkedLoop_iff {n : ℕ} {choice : Choice K n} {P : Matrix (Fin n) (Fin n) K} {final : Option (Fin n)}
    {l : List (Fin n)} (k t : ℕ) (i : Fin n) : checkedLoop choice P final k t i = .ok l ↔
      l = simulateLoop choice P final k t i ∧ ∀ j ∈ (i :: l).dropLast, choiceAccepts (P j) = true := by
  induction k generalizing t i l with
  | zero =>
    unfold checkedLoop simulateLoop
    rw [R.pure_ok]
    constructor
    · rintro rfl
      exact ⟨rfl, by simp⟩
    · rintro ⟨rfl, -⟩
      rfl
  | succ k ih =>
    unfold checkedLoop simulateLoop
    dsimp only
    by_cases hi : choiceAccepts (P i) = true
    · rw [if_pos hi]
      by_cases hf : final = some (choice t (P i))
      · rw [if_pos hf, if_pos hf, R.pure_ok]
        constructor
        · rintro rfl
          exact ⟨rfl, by simpa using hi⟩
        · rintro ⟨rfl, -⟩
          rfl
      · rw [if_neg hf, if_neg hf, R.bind_ok]
        constructor
        · rintro ⟨l', h1, h2⟩
          rw [R.pure_ok] at h2
          subst h2
          obtain ⟨h3, h4⟩ := ih (t + 1) _ |>.1 h1
          refine ⟨by rw [h3], fun j hj => ?_⟩
          rw [List.dropLast_cons_cons, List.mem_cons] at hj
          rcases hj with rfl | hj
          · exact hi
          · exact h4 j hj
        · rintro ⟨rfl, h⟩
          refine ⟨_, (ih (t + 1) _).2 ⟨rfl, fun j hj => h j ?_⟩, rfl⟩
          rw [List.dropLast_cons_cons]
          exact List.mem_cons_of_mem _ hj
    · rw [if_neg hi]
      constructor
      · intro h
        exact ((R.throw_ok _ _).1 h).elim
      · rintro ⟨h1, h2⟩
        refine (hi (h2 i ?_)).elim
        have hne : l ≠ [] := by
          rw [h1]
          split_ifs <;> simp
        obtain ⟨a, l', rfl⟩ := List.exists_cons_of_ne_nil hne
        rw [List.dropLast_cons_cons]
        exact List.mem_cons_self

theorem checkedRun_iff {n : ℕ} {choice : Choice K n} {P : Matrix (Fin n) (Fin n) K} {final : Option (Fin n)}
    {w : List (Fin n)} (steps : ℕ) (i : Fin n) : checkedRun choice P steps i final = .ok w ↔
      w = mcSimulate choice P steps i final ∧ ∀ j ∈ w.dropLast, choiceAccepts (P j) = true := by
  unfold checkedRun mcSimulate
  rw [R.bind_ok]
  constructor
  · rintro ⟨l, h1, h2⟩
    rw [R.pure_ok] at h2
    subst h2
    obtain ⟨h3, h4⟩ := (checkedLoop_iff _ _ _).1 h1
    exact ⟨by rw [h3], h4⟩
  · rintro ⟨rfl, h⟩
    exact ⟨_, (checkedLoop_iff _ _ _).2 ⟨rfl, h⟩, rfl⟩

/-- C153, partial: if the rows sum to one up to `2^-26`, then `simulate` and `next` return what they return without
the check of the generator; `C140_simulate` says for which arguments this is a result. -/
theorem C153_simulate_partial {c : MC K} (h0 : ∀ i j, 0 ≤ c.p i j) (hs : ∀ i, |∑ j, c.p i j - 1| ≤ 1 / 2 ^ 26)
    (choice : Choice K c.n) (start : Fin c.n) (steps initialState finalState outputIndices : PyVal K) :
    simulateChecked c choice start steps initialState finalState outputIndices =
      simulate c choice start steps initialState finalState outputIndices ∧
    nextChecked c choice initialState outputIndices = next c choice initialState outputIndices := by
  have h : ∀ k i f, checkedRun choice c.p k i f = .ok (mcSimulate choice c.p k i f) := fun k i f =>
    (checkedRun_iff _ _).2 ⟨rfl, fun j _ => choiceAccepts_iff.2 ⟨h0 j, hs j⟩⟩
  constructor
  · unfold simulateChecked simulate
    simp only [h, R.ok_bind]
  · unfold nextChecked next
    simp only [h, R.ok_bind]

/-- C153: the exact condition for any matrix. `simulate` returns a result exactly if the arguments are accepted and
all states of the run except the last one have weights that the generator accepts. -/
theorem C153_simulate_iff {c : MC K} {choice : Choice K c.n} {start : Fin c.n}
    {steps initialState finalState outputIndices : PyVal K} {o : Output} :
    simulateChecked c choice start steps initialState finalState outputIndices = .ok o ↔
      ∃ s i f b, validateInteger steps (some (2, false)) none = .ok s ∧
        optionalLabel initialState c.states c.n = .ok i ∧ optionalLabel finalState c.states c.n = .ok f ∧
        validateBoolean outputIndices = .ok b ∧
        o = render c.states b (mcSimulate choice c.p s.toNat (i.getD start) f) ∧
        ∀ j ∈ (mcSimulate choice c.p s.toNat (i.getD start) f).dropLast,
          (∀ k, 0 ≤ c.p j k) ∧ |∑ k, c.p j k - 1| ≤ 1 / 2 ^ 26 := by
  unfold simulateChecked
  simp only [R.bind_ok, checkedRun_iff, R.pure_ok, choiceAccepts_iff]
  constructor
  · rintro ⟨s, hs, i, hi, f, hf, b, hb, w, ⟨rfl, hw⟩, rfl⟩
    exact ⟨s, i, f, b, hs, hi, hf, hb, rfl, hw⟩
  · rintro ⟨s, i, f, b, hs, hi, hf, hb, rfl, hw⟩
    exact ⟨s, hs, i, hi, f, hf, b, hb, _, ⟨rfl, hw⟩, rfl⟩

/-- C153: if the weights of the first state are not accepted, then a call with accepted arguments ends with the
`ValueError` of the generator, whatever random numbers are drawn. -/
theorem C153_first_row {c : MC K} {choice : Choice K c.n} {start : Fin c.n}
    {steps initialState finalState outputIndices : PyVal K} {o : Output}
    (h : simulate c choice start steps initialState finalState outputIndices = .ok o)
    (hrow : ∀ i, optionalLabel initialState c.states c.n = .ok i →
      1 / 2 ^ 26 < |∑ j, c.p (i.getD start) j - 1|) :
    simulateChecked c choice start steps initialState finalState outputIndices = .error .valueError := by
  unfold simulate at h
  rw [R.bind_ok] at h
  obtain ⟨s, hs, h⟩ := h
  rw [R.bind_ok] at h
  obtain ⟨i, hi, h⟩ := h
  rw [R.bind_ok] at h
  obtain ⟨f, hf, h⟩ := h
  rw [R.bind_ok] at h
  obtain ⟨b, hb, h⟩ := h
  have hno : ¬ choiceAccepts (c.p (i.getD start)) = true := by
    rw [choiceAccepts_iff]
    exact fun h => absurd h.2 (not_le.2 (hrow i hi))
  have hpos : 2 ≤ s := (validateInteger_ge hs).2
  obtain ⟨k, hk⟩ : ∃ k, s.toNat = k + 1 := ⟨s.toNat - 1, by omega⟩
  unfold simulateChecked
  rw [hs, R.ok_bind, hi, R.ok_bind, hf, R.ok_bind, hb, R.ok_bind]
  unfold checkedRun
  rw [hk]
  unfold checkedLoop
  rw [if_neg hno]
  rfl

/-- Three states, all probabilities given with five digits. -/
def exDigits : Matrix (Fin 3) (Fin 3) ℚ := fun _ _ => 33333 / 100000

theorem exDigits_accepted : AcceptedMatrix exDigits :=
  ⟨by decide, show ∀ i j : Fin 3, 0 ≤ (fun i j : Fin 3 => exDigits i j) i j ∧ (fun i j : Fin 3 => exDigits i j) i j ≤ 1 by
    decide +kernel, show ∀ i : Fin 3, |∑ j, (fun i j : Fin 3 => exDigits i j) i j - 1| ≤ 1 / 10 ^ 8 + 1 / 10 ^ 5 by
    decide +kernel⟩

theorem exDigits_rows : ∀ i : Fin 3, (1 : ℚ) / 2 ^ 26 < |∑ j, exDigits i j - 1| := by
  change ∀ i : Fin 3, (1 : ℚ) / 2 ^ 26 < |∑ j, (fun i j : Fin 3 => exDigits i j) i j - 1|
  decide +kernel

/-- C153 fails: the constructor accepts a chain on which every call of `simulate` and `next` with accepted arguments
ends with a `ValueError`, for all random numbers. -/
theorem C153_simulate_raises : ∃ c, mcInit "main" (pyMatrix exDigits) .none = .ok c ∧
    (∀ choice start steps initialState finalState outputIndices o,
      simulate c choice start steps initialState finalState outputIndices = .ok o →
      simulateChecked c choice start steps initialState finalState outputIndices = .error .valueError) ∧
    ∀ choice initialState outputIndex o, next c choice initialState outputIndex = .ok o →
      nextChecked c choice initialState outputIndex = .error .valueError := by
  refine ⟨⟨3, exDigits, createLabels 3 ""⟩,
    (C01_constructor_default_labels (by decide) exDigits _ (Or.inl rfl) _).2 ⟨exDigits_accepted, rfl⟩,
    fun choice start steps initialState finalState outputIndices o h => C153_first_row h fun i _ => exDigits_rows (i.getD start),
    fun choice initialState outputIndex o h => ?_⟩
  unfold next at h
  rw [R.bind_ok] at h
  obtain ⟨k, hk, h⟩ := h
  rw [R.bind_ok] at h
  obtain ⟨i, hi, h⟩ := h
  rw [R.bind_ok] at h
  obtain ⟨b, hb, h⟩ := h
  unfold nextChecked
  rw [hk, R.ok_bind, hi, R.ok_bind, hb, R.ok_bind]
  unfold checkedRun checkedLoop
  rw [if_neg (by rw [choiceAccepts_iff]; exact fun h => absurd h.2 (not_le.2 (exDigits_rows i)))]
  rfl

/-- There are accepted calls, to which `C153_simulate_raises` applies. -/
example : ∃ o, simulate (⟨3, exDigits, createLabels 3 ""⟩ : MC ℚ) (fun _ _ => 0) 0 (.int 5) .none .none (.bool true) =
    .ok o := ⟨.indices [0, 0, 0, 0, 0, 0], by decide +kernel⟩

/-- The hypotheses of `C153_simulate_partial` can be met by rows that do not sum to one exactly. -/
example : ∃ c : MC ℚ, (∀ i j, 0 ≤ c.p i j) ∧ (∀ i, |∑ j, c.p i j - 1| ≤ 1 / 2 ^ 26) ∧ ∃ i, ∑ j, c.p i j ≠ 1 := by
  refine ⟨⟨3, fun _ _ => 333333333 / 1000000000, createLabels 3 ""⟩, ?_, ?_, 0, ?_⟩
  · change ∀ i j : Fin 3, (0 : ℚ) ≤ 333333333 / 1000000000
    norm_num
  · change ∀ i : Fin 3, |∑ j : Fin 3, (333333333 / 1000000000 : ℚ) - 1| ≤ 1 / 2 ^ 26
    decide +kernel
  · change ∑ j : Fin 3, (333333333 / 1000000000 : ℚ) ≠ 1
    decide +kernel

/-! ### Hidden models -/

/-- C153, partial: if the rows of the emission matrix sum to one up to `2^-26`, then `simulate` of a hidden model
returns what it returns without the check of the generator. -/
theorem C153_hidden_partial {m : HMM K} (h0 : ∀ i y, 0 ≤ m.e i y) (hs : ∀ i, |∑ y, m.e i y - 1| ≤ 1 / 2 ^ 26)
    (hn : 0 < m.n) (hk : 0 < m.k) (choice : Choice K m.k) (pr er : ℕ → K) (start : Fin m.n)
    (steps initialState finalState finalSymbol : PyVal K) :
    m.simulateChecked hn hk choice pr er start steps initialState finalState finalSymbol =
      m.simulate hn hk choice pr er start steps initialState finalState finalSymbol := by
  have h : ∀ i, choiceAccepts (m.e i) = true := fun i => choiceAccepts_iff.2 ⟨h0 i, hs i⟩
  unfold HMM.simulateChecked HMM.simulate
  simp only [h, if_true]

/-- Two hidden states with three symbols, all emission probabilities given with five digits. -/
def exHiddenDigits : HMM ℚ where
  n := 2
  k := 3
  p := fun _ _ => 1 / 2
  e := fun _ _ => 33333 / 100000
  states := ["a", "b"]
  symbols := ["u", "v", "w"]

/-- C153 fails for hidden models in the same way. -/
theorem C153_hidden_raises :
    hmmInit "user" (pyMatrix (fun _ _ => 1 / 2 : Matrix (Fin 2) (Fin 2) ℚ))
      (pyMatrix (fun _ _ => 33333 / 100000 : Matrix (Fin 2) (Fin 3) ℚ)) (pyStrings ["a", "b"])
      (pyStrings ["u", "v", "w"]) = .ok exHiddenDigits ∧
    ∀ choice pr er start steps initialState finalState finalSymbol o,
      exHiddenDigits.simulate (by decide) (by decide) choice pr er start steps initialState finalState finalSymbol =
        .ok o →
      exHiddenDigits.simulateChecked (by decide) (by decide) choice pr er start steps initialState finalState
        finalSymbol = .error .valueError := by
  refine ⟨(C75_constructor_iff (by decide) _ _ _ _ (Or.inl rfl) (Or.inl rfl) _ _ _).2
    ⟨⟨by decide, by decide +kernel, by decide +kernel⟩, ⟨by decide, by decide +kernel, by decide +kernel⟩,
      ⟨by decide, by decide, by decide⟩, ⟨by decide, by decide, by decide⟩, by rw [List.disjoint_left]; decide, rfl⟩,
    fun choice pr er start steps initialState finalState finalSymbol o h => ?_⟩
  unfold HMM.simulate at h
  rw [R.bind_ok] at h
  obtain ⟨s, hs, h⟩ := h
  rw [R.bind_ok] at h
  obtain ⟨i, hi, h⟩ := h
  rw [R.bind_ok] at h
  obtain ⟨f, hf, h⟩ := h
  rw [R.bind_ok] at h
  obtain ⟨g, hg, h⟩ := h
  unfold HMM.simulateChecked
  rw [hs, R.ok_bind, hi, R.ok_bind, hf, R.ok_bind, hg, R.ok_bind, if_neg]
  · rfl
  · change ¬ choiceAccepts (fun _ : Fin 3 => (33333 / 100000 : ℚ)) = true
    decide +kernel

/-- There are accepted calls, to which `C153_hidden_raises` applies. -/
example : ∃ o, exHiddenDigits.simulate (by decide) (by decide) (fun _ _ => (0 : Fin 3)) (fun _ => 1 / 4) (fun _ => 1 / 4)
    (0 : Fin 2) (.int 2) .none .none .none = .ok o := ⟨_, rfl⟩

end Verif
