import Verif.Lemmas.Validation
import Verif.Model.Validation2
import Verif.Spec.Args
import Verif.Model.Fitting
import Verif.Model.HiddenGen
import Verif.Model.ModelArguments
import Verif.Model.Plotting
import Verif.Model.Times

/-!
# Which exception the validators raise (C184)

The validators of `/repo/pydtmc/validation.py` raise `TypeError` for arguments of a wrong type and
`ValueError` for arguments of a right type with a wrong value. The exceptions are turned into
`ValidationError`, but their texts (which differ) reach the caller (`utilities.py:192-202`).

For arrays the type is wrong if `extract_numeric` fails. Lists nested more than twice are left out: in the
code they become arrays of rank three and cause a `ValueError`, in the model `extractNumeric` rejects them.
Where the model says `ValueError` for an empty one-row matrix given to `validate_vector`, the code raises
`IndexError`; neither is a `TypeError`.
-/

set_option linter.unusedSimpArgs false
set_option linter.unusedSectionVars false
set_option linter.flexible false

namespace Verif

variable {K : Type} [Field K] [LinearOrder K]

/-- The validator raises `TypeError`. -/
def R.isTypeError {α : Type} (x : R α) : Prop := x = .error .typeError

/-- The validator raises `ValueError`. -/
def R.isValueError {α : Type} (x : R α) : Prop := x = .error .valueError

section bookkeeping
variable {α β : Type}

private theorem ty_throw (e : Err) : R.isTypeError (throw e : R α) ↔ e = .typeError := by
  simp [R.isTypeError, throw, throwThe, MonadExceptOf.throw]

private theorem ty_pure (a : α) : R.isTypeError (pure a : R α) ↔ False := by
  simp [R.isTypeError, pure, Except.pure]

private theorem ty_ite (c : Prop) [Decidable c] (x y : R α) :
    R.isTypeError (if c then x else y) ↔ (c ∧ x.isTypeError) ∨ (¬ c ∧ y.isTypeError) := by
  split <;> simp_all

private theorem ty_bind (x : R α) (f : α → R β) :
    R.isTypeError (x >>= f) ↔ x.isTypeError ∨ ∃ a, x = .ok a ∧ (f a).isTypeError := by
  cases x <;> simp [R.isTypeError, bind, Except.bind]

private theorem ty_map (x : R α) (f : α → β) : R.isTypeError (f <$> x) ↔ x.isTypeError := by
  cases x <;> simp [R.isTypeError, Functor.map, Except.map]

private theorem ty_limits {γ : Type} [LinearOrder γ] (x : γ) (l u : Option (γ × Bool)) :
    R.isTypeError (validateLimits x l u) ↔ False := by
  rcases l with _ | ⟨a, _ | _⟩ <;> rcases u with _ | ⟨b, _ | _⟩ <;>
    simp [validateLimits, ty_bind, ty_map, ty_ite, ty_throw, ty_pure, R.isTypeError, pure, Except.pure] <;>
    (try split) <;> (try split) <;>
    simp_all [bind, Except.bind, pure, Except.pure, throw, throwThe, MonadExceptOf.throw]

end bookkeeping

/-! ### Single values -/

theorem C184_boolean (v : PyVal K) :
    (validateBoolean v).isTypeError ↔ ¬ ∃ b, v = .bool b := by
  cases v <;> simp [validateBoolean, ty_throw, ty_pure]

theorem C184_integer (v : PyVal K) (l u : Option (ℤ × Bool)) :
    (validateInteger v l u).isTypeError ↔ ¬ ∃ z, v = .int z := by
  cases v <;> simp [validateInteger, ty_throw, ty_pure, ty_bind, ty_map, ty_limits]

theorem C184_float (v : PyVal K) (l u : Option (K × Bool)) :
    (validateFloat v l u).isTypeError ↔ ¬ ∃ x, v = .float x := by
  cases v with
  | float x => cases x <;> simp [validateFloat, ty_throw, ty_pure, ty_bind, ty_map, ty_limits]
  | _ => simp [validateFloat, ty_throw]

theorem C184_enumerator (v : PyVal K) (possible : List String) :
    (validateEnumerator v possible).isTypeError ↔ ¬ ∃ s, v = .str s ∧ nonBlank s = true := by
  cases v <;> simp [validateEnumerator, ty_throw, ty_pure, ty_ite]

theorem C184_dpi (v : PyVal K) : (validateDpi v).isTypeError ↔ ¬ ∃ z, v = .int z := by
  cases v <;> simp [validateDpi, ty_throw, ty_pure, ty_ite]

theorem C184_boundary (v : PyVal K) :
    (validateBoundaryCondition v).isTypeError ↔
      ¬ ((∃ z, v = .int z) ∨ (∃ x, v = .float x) ∨ ∃ s, v = .str s ∧ nonBlank s = true) := by
  cases v <;>
    simp [validateBoundaryCondition, ty_throw, ty_pure, ty_ite, PyVal.isNumber, PyVal.isFloat,
      PyVal.isInteger]

theorem C184_label (v : PyVal K) (labels : List String) :
    (validateLabel v labels).isTypeError ↔
      ¬ ((∃ z, v = .int z) ∨ ∃ s, v = .str s ∧ nonBlank s = true) := by
  cases v with
  | str s =>
    simp only [validateLabel, PyVal.isInteger, PyVal.isString, PyVal.asStr]
    cases labelIndex labels s <;> by_cases h : nonBlank s = true <;> simp [h, ty_throw, ty_pure]
  | _ => simp [validateLabel, ty_throw, ty_pure, ty_ite, PyVal.isInteger, PyVal.isString]

/-! ### Lists -/

private theorem all_integer (l : List (PyVal K)) :
    l.all PyVal.isInteger = true ↔ ∀ v ∈ l, ∃ z, v = .int z := by
  rw [List.all_eq_true]
  refine forall₂_congr fun v _ => ?_
  cases v <;> simp [PyVal.isInteger]

private theorem all_string (l : List (PyVal K)) :
    l.all PyVal.isString = true ↔ ∀ v ∈ l, ∃ s, v = .str s ∧ nonBlank s = true := by
  rw [List.all_eq_true]
  refine forall₂_congr fun v _ => ?_
  cases v <;> simp [PyVal.isString]

private theorem ty_resolve (l : List (PyVal K)) (labels : List String) :
    (resolveList l labels).isTypeError ↔ ¬ Homogeneous l := by
  have hs : (resolveStrs l labels).isTypeError ↔ False := by
    unfold resolveStrs
    split <;> simp [ty_throw, ty_pure]
  unfold resolveList Homogeneous
  rw [ty_ite, ty_ite, hs, ← all_integer, ← all_string]
  simp [resolveInts, ty_throw, ty_pure, ty_ite]

theorem C184_labels_current (v : PyVal K) (labels : List String) (subset : Bool)
    (minimum : Option ℕ) :
    (validateLabelsCurrent v labels subset minimum).isTypeError ↔
      ¬ ((∃ z, v = .int z) ∨ (∃ s, v = .str s ∧ nonBlank s = true) ∨
        ∃ l, v = .list l ∧ Homogeneous l) := by
  cases v with
  | str s =>
    simp only [validateLabelsCurrent]
    cases labelIndex labels s <;> simp [ty_throw, ty_pure, ty_ite]
  | list l => simp [validateLabelsCurrent, ty_throw, ty_pure, ty_ite, ty_bind, ty_map, ty_resolve]
  | _ => simp [validateLabelsCurrent, ty_throw, ty_pure, ty_ite]

theorem C184_time_points (v : PyVal K) :
    (validateTimePoints v).isTypeError ↔
      ¬ ((∃ z, v = .int z) ∨ ∃ l, v = .list l ∧ ∀ x ∈ l, ∃ z, x = .int z) := by
  cases v with
  | list l =>
    simp only [validateTimePoints, ty_ite, ty_throw, ty_pure, ← all_integer]
    simp
  | _ => simp [validateTimePoints, ty_throw, ty_pure, ty_ite]

/-- Lists whose elements have a wrong type. For arguments that are not lists see `C184_not_a_list`. -/
theorem C184_labels_input (v : PyVal K) (size : Option ℕ) :
    (validateLabelsInput v size).isTypeError ↔
      ∃ l, v = .list l ∧ ¬ ∀ x ∈ l, ∃ s, x = .str s ∧ nonBlank s = true := by
  cases v with
  | list l =>
    cases size <;>
      simp only [validateLabelsInput, ty_ite, ty_throw, ty_pure, ← all_string] <;> simp
  | _ => simp [validateLabelsInput, ty_throw]

theorem C184_sequence (v : PyVal K) (labels : List String) :
    (validateSequence v labels).isTypeError ↔
      ∃ l, v = .list l ∧ 2 ≤ l.length ∧ ¬ Homogeneous l := by
  cases v with
  | list l => simp [validateSequence, ty_ite, ty_throw, ty_resolve, Nat.succ_le_iff]
  | _ => simp [validateSequence, ty_throw]

theorem C184_strings (v : PyVal K) (size : ℕ) :
    (validateStrings v size).isTypeError ↔
      ∃ l, v = .list l ∧ ¬ ∀ x ∈ l, ∃ s, x = .str s ∧ nonBlank s = true := by
  have key : ∀ l : List (PyVal K), asStrings l = none ↔
      ¬ ∀ x ∈ l, ∃ s, x = .str s ∧ nonBlank s = true := by
    intro l
    induction l with
    | nil => simp [asStrings]
    | cons a l ih =>
      cases a with
      | str s =>
        by_cases h : nonBlank s = true
        · simp only [asStrings, h, if_true, Option.map_eq_none_iff, ih]
          simp [h]
        · simp [asStrings, h]
      | _ => simp [asStrings]
  cases v with
  | list l =>
    simp only [validateStrings]
    have hk := key l
    cases h : asStrings l with
    | none => simp only [h, true_iff] at hk; exact iff_of_true rfl ⟨l, rfl, hk⟩
    | some names =>
      simp only [h, reduceCtorEq, false_iff, not_not] at hk
      simp only [ty_ite, ty_throw, ty_pure]
      simpa using hk
  | _ => simp [validateStrings, ty_throw]

/-- Groups that are not lists, or elements that are not of one type. -/
theorem C184_partitions (v : PyVal K) (labels : List String) :
    (validatePartitions v labels).isTypeError ↔
      ∃ parts, v = .list parts ∧ 2 ≤ parts.length ∧ parts.length < labels.length ∧
        ¬ ∃ groups : List (List (PyVal K)), parts = groups.map .list ∧ Homogeneous groups.flatten := by
  have hty : ∀ parts : List (PyVal K), (parts.mapM asGroup).isTypeError ↔
      ¬ ∃ groups : List (List (PyVal K)), parts = groups.map .list := by
    intro parts
    induction parts with
    | nil =>
      simp only [List.mapM_nil, ty_pure, false_iff, not_not]
      exact ⟨[], rfl⟩
    | cons a l ih =>
      rw [List.mapM_cons, ty_bind]
      simp only [ty_bind, ty_map, ty_pure, and_false, exists_false, or_false, ih]
      cases a with
      | list g =>
        have hg : asGroup (K := K) (.list g) = .ok g := rfl
        rw [hg]
        simp only [R.isTypeError, reduceCtorEq, false_or, Except.ok.injEq]
        constructor
        · rintro ⟨a, rfl, h⟩ ⟨groups, hgr⟩
          cases groups with
          | nil => cases hgr
          | cons b groups =>
            simp only [List.map_cons, List.cons.injEq] at hgr
            exact h ⟨groups, hgr.2⟩
        · intro h
          refine ⟨g, rfl, ?_⟩
          rintro ⟨groups, rfl⟩
          exact h ⟨g :: groups, rfl⟩
      | _ =>
        refine iff_of_true (Or.inl (by simp [asGroup, ty_throw])) ?_
        rintro ⟨groups, hgr⟩
        cases groups <;> simp at hgr
  have hok : ∀ (parts : List (PyVal K)) (groups : List (List (PyVal K))), parts.mapM asGroup = .ok groups ↔
      parts = groups.map .list := by
    intro parts
    induction parts with
    | nil => intro groups; cases groups <;> simp [List.mapM_nil]
    | cons a l ih =>
      intro groups
      rw [List.mapM_cons, R.bind_ok]
      simp only [R.bind_ok, R.pure_ok, ih]
      cases a with
      | list g =>
        have hg : asGroup (K := K) (.list g) = .ok g := rfl
        rw [hg]
        constructor
        · rintro ⟨b, hb, gs, rfl, rfl⟩
          cases hb
          rfl
        · intro h
          cases groups with
          | nil => cases h
          | cons b groups =>
            simp only [List.map_cons, List.cons.injEq, PyVal.list.injEq] at h
            exact ⟨g, rfl, groups, h.2, by rw [h.1]⟩
      | _ =>
        refine iff_of_false ?_ ?_
        · rintro ⟨b, hb, -⟩
          simp [asGroup] at hb
        · intro h
          cases groups <;> simp at h
  cases v with
  | list parts =>
    simp only [validatePartitions, ty_ite, ty_bind, ty_map, ty_throw, ty_pure, ty_resolve, hty, hok,
      reduceCtorEq, and_false, false_or, or_false, PyVal.list.injEq, exists_eq_left', exists_false,
      not_or, not_lt, not_le, ge_iff_le, and_assoc]
    refine and_congr_right fun _ => and_congr_right fun _ => ?_
    constructor
    · rintro (h | ⟨groups, rfl, h⟩)
      · rintro ⟨groups, hg, -⟩
        exact h ⟨groups, hg⟩
      · rintro ⟨groups', hg, h'⟩
        have : groups = groups' := by
          refine List.map_injective_iff.2 (fun a b hab => ?_) hg
          cases hab
          rfl
        exact h (this ▸ h')
    · intro h
      by_cases hg : ∃ groups : List (List (PyVal K)), parts = groups.map PyVal.list
      · obtain ⟨groups, hg⟩ := hg
        exact Or.inr ⟨groups, hg, fun h' => h ⟨groups, hg, h'⟩⟩
      · exact Or.inl hg
  | _ => simp [validatePartitions, ty_throw]

/-- Arguments that should be lists and are not have a wrong type, but the exception is `ValueError`. -/
theorem C184_not_a_list (v : PyVal K) (h : ∀ l, v ≠ .list l) (labels : List String)
    (size : Option ℕ) (n : ℕ) :
    (validateLabelsInput v size).isValueError ∧ (validateSequence v labels).isValueError ∧
      (validateStrings v n).isValueError ∧ (validatePartitions v labels).isValueError := by
  cases v with
  | list l => exact absurd rfl (h l)
  | _ => exact ⟨rfl, rfl, rfl, rfl⟩

/-! ### Arrays -/

theorem C184_transition_matrix (v : PyVal K) (size : Option ℕ) :
    (validateTransitionMatrix v size).isTypeError ↔ extractNumeric v = none := by
  unfold validateTransitionMatrix
  cases extractNumeric v with
  | none => simp [ty_throw]
  | some a =>
    cases a <;> simp [ty_throw, ty_pure, ty_ite, ty_bind, ty_map, checkStochastic]

theorem C184_emission_matrix (v : PyVal K) (size : ℕ) :
    (validateEmissionMatrix v size).isTypeError ↔ extractNumeric v = none := by
  unfold validateEmissionMatrix
  cases extractNumeric v with
  | none => simp [ty_throw]
  | some a =>
    cases a <;> simp [ty_throw, ty_pure, ty_ite, ty_bind, ty_map, checkStochastic]

theorem C184_matrix (v : PyVal K) :
    (validateMatrix v).isTypeError ↔ extractNumeric v = none := by
  unfold validateMatrix
  cases extractNumeric v with
  | none => simp [ty_throw]
  | some a => cases a <;> simp [ty_throw, ty_pure, ty_ite]

theorem C184_mask (v : PyVal K) (rows columns : ℕ) :
    (validateMask v rows columns).isTypeError ↔ extractNumeric v = none := by
  unfold validateMask
  cases extractNumeric v with
  | none => simp [ty_throw]
  | some a => cases a <;> simp [ty_throw, ty_pure, ty_ite]

private theorem ty_vector (b : Bool) (v : PyVal K) :
    (extractVector b v).isTypeError ↔ extractNumeric v = none := by
  unfold extractVector
  cases extractNumeric v with
  | none => simp [ty_throw]
  | some a =>
    cases a with
    | vec l => simp [ravel, ty_throw, ty_pure, ty_ite]
    | mat l => rcases l with _ | ⟨r, _ | ⟨s, t⟩⟩ <;> simp [ravel, ty_throw, ty_pure]

private theorem ty_check (l : List (Flt K)) (ty : VectorType) :
    (checkVector l ty).isTypeError ↔ False := by
  simp [checkVector, ty_throw, ty_pure, ty_ite]

theorem C184_vector (v : PyVal K) (ty : VectorType) (flex : Bool) (size : Option ℕ) :
    (validateVector v ty flex size).isTypeError ↔
      ¬ (flex = true ∧ v.isNumber = true) ∧ extractNumeric v = none := by
  cases size <;> simp [validateVector, ty_throw, ty_ite, ty_bind, ty_map, ty_vector, ty_check]

theorem C184_rewards (v : PyVal K) (size : ℕ) :
    (validateRewards v size).isTypeError ↔ extractNumeric v = none := by
  simp [validateRewards, ty_throw, ty_pure, ty_ite, ty_bind, ty_map, ty_vector]

theorem C184_status (v : PyVal K) (labels : List String) :
    (validateStatus v labels).isTypeError ↔
      ¬ ((∃ z, v = .int z) ∨ ∃ s, v = .str s ∧ nonBlank s = true) ∧ extractNumeric v = none := by
  cases v with
  | str s =>
    simp only [validateStatus]
    cases labelIndex labels s <;> simp [ty_throw, ty_pure, ty_ite, extractNumeric]
  | int z => simp [validateStatus, ty_throw, ty_pure, ty_ite]
  | _ => simp [validateStatus, ty_throw, ty_pure, ty_ite, ty_bind, ty_map, ty_vector]

/-! ### Models -/

/-- A single argument is rejected with `TypeError` only, a list with `ValueError` only. -/
theorem C184_models (v : PyObj) (f : PyObj → R PyObj) (l : Option (List PyObj)) :
    (¬ (validateModel v).isTypeError → validateModel v = .ok v) ∧
      (¬ (validateAll f l).isValueError → ∃ r, l = some r ∧ validateAll f l = .ok r) := by
  constructor
  · intro h
    simp only [validateModel, ty_ite, ty_throw, and_true, not_or, not_and, not_not] at h
    obtain ⟨h1, h2⟩ := h
    have h2 := h2 h1
    unfold validateModel
    rw [if_neg h1]
    dsimp only
    rw [if_neg (not_not.2 h2.1)]
    have h3 := h2.2 h2.1
    cases hb : v.cls.bases with
    | nil => simp only [hb] at h3; exact absurd rfl h3
    | cons b t =>
      simp only [hb, ty_ite, ty_throw, and_true, ty_pure, and_false, or_false, not_not] at h3
      dsimp only
      rw [if_neg (not_not.2 h3)]
      rfl
  · cases l with
    | none => intro h; exact absurd rfl h
    | some l =>
      simp only [validateAll]
      intro h
      split_ifs at h ⊢ with h1 h2
      · exact absurd rfl h
      · exact ⟨l, rfl, rfl⟩
      · exact absurd rfl h

section hyper
variable [FloorRing K]

theorem C184_hyperparameter (v : PyVal K) (n : ℕ) :
    (validateHyper v n).isTypeError ↔ extractNumeric v = none := by
  unfold validateHyper
  cases extractNumeric v with
  | none => simp [ty_throw]
  | some a => cases a <;> simp [ty_throw, ty_pure, ty_ite]

end hyper

/-- Whatever is rejected without `TypeError` is rejected with `ValueError`. -/
theorem C184_other {α : Type} (x : R α) (h : ¬ x.isTypeError) :
    x.isValueError ∨ ∃ a, x = .ok a := by
  cases x with
  | ok a => exact Or.inr ⟨a, rfl⟩
  | error e => cases e <;> simp_all [R.isTypeError, R.isValueError]

example : (validateFloat (.int 1 : PyVal ℚ) none none).isTypeError :=
  (C184_float _ _ _).2 (by simp)
example : (validateFloat (.float .nan : PyVal ℚ) none none).isValueError := rfl
example : (validateEnumerator (.str " " : PyVal ℚ) ["mle"]).isTypeError :=
  rfl
example : (validateEnumerator (.str "mlee" : PyVal ℚ) ["mle"]).isValueError := rfl
example : (validateTimePoints (.list [.int (-1)] : PyVal ℚ)).isValueError := rfl
example : (validateTimePoints (.list [.float (.fin 1)] : PyVal ℚ)).isTypeError := rfl
example : (validateSequence (.str "AB" : PyVal ℚ) ["A", "B"]).isValueError := rfl
example : (validatePartitions (.list [.int 0, .int 1] : PyVal ℚ) ["A", "B", "C"]).isTypeError := rfl

end Verif
