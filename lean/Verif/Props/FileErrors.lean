import Verif.Model.FileErrors
import Verif.Props.Files

/-!
# The kinds of the exceptions of files

C181: the documentation of `from_file` promises a `ValueError` for a file with invalid data. In the four
formats every failure is one, except for JSON files with integers that do not fit into a float.
-/

namespace Verif

variable {K : Type}

/-- A computation that fails with a `ValueError` only. -/
def OnlyValue {α : Type} (r : R α) : Prop := ∀ e, r = .error e → e = .valueError

theorem OnlyValue.pure {α : Type} (a : α) : OnlyValue (pure a : R α) := fun _ h => by cases h

theorem OnlyValue.throw {α : Type} : OnlyValue (throw .valueError : R α) := fun _ h => by cases h; rfl

theorem OnlyValue.bind {α β : Type} {r : R α} {f : α → R β} (hr : OnlyValue r) (hf : ∀ a, OnlyValue (f a)) :
    OnlyValue (r >>= f) := by
  intro e h
  cases r with
  | error e' => cases h; exact hr _ rfl
  | ok a => exact hf a e h

theorem OnlyValue.ite {α : Type} {p : Prop} [Decidable p] {r s : R α} (hr : OnlyValue r) (hs : OnlyValue s) :
    OnlyValue (if p then r else s) := by
  split
  · exact hr
  · exact hs

theorem OnlyValue.mapM {α β : Type} {f : α → R β} (hf : ∀ a, OnlyValue (f a)) (l : List α) :
    OnlyValue (l.mapM f) := by
  induction l with
  | nil => rw [List.mapM_nil]; exact OnlyValue.pure _
  | cons a l ih =>
    rw [List.mapM_cons]
    exact (hf a).bind fun b => ih.bind fun m => OnlyValue.pure _

theorem OnlyValue.foldlM {α β : Type} {f : β → α → R β} (hf : ∀ b a, OnlyValue (f b a)) (l : List α) (b : β) :
    OnlyValue (l.foldlM f b) := by
  induction l generalizing b with
  | nil => rw [List.foldlM_nil]; exact OnlyValue.pure _
  | cons a l ih =>
    rw [List.foldlM_cons]
    exact (hf b a).bind fun b => ih b

theorem jsonString_value (v : Option (PyVal K)) : OnlyValue (jsonString v) := by
  unfold jsonString
  split
  · exact OnlyValue.throw.ite (OnlyValue.pure _)
  · exact OnlyValue.throw

theorem jsonNumber_value [Field K] (v : Option (PyVal K)) : OnlyValue (jsonNumber v) := by
  unfold jsonNumber
  split
  · exact OnlyValue.pure _
  · exact OnlyValue.pure _
  · exact OnlyValue.pure _
  · exact OnlyValue.throw

theorem readTxt_value (mc : Bool) (parse : String → Option K) (l : List Char) :
    OnlyValue (readTxt mc parse l) := by
  refine (OnlyValue.mapM (fun l => ?_) _).bind fun rows => OnlyValue.pure _
  refine OnlyValue.throw.ite (OnlyValue.throw.ite ?_)
  split
  · exact OnlyValue.throw
  · exact OnlyValue.pure _

theorem readXml_value (mc : Bool) (parse : String → Option K) (l : List (List (String × String))) :
    OnlyValue (readXml mc parse l) := by
  refine (OnlyValue.mapM (fun l => ?_) _).bind fun rows => OnlyValue.pure _
  refine OnlyValue.throw.ite (OnlyValue.throw.ite (OnlyValue.throw.ite ?_))
  split
  · exact OnlyValue.throw
  · exact OnlyValue.pure _

theorem readJson_value [Field K] (mc : Bool) (l : List (List (String × PyVal K))) :
    OnlyValue (readJson mc l) := by
  refine (OnlyValue.mapM (fun l => ?_) _).bind fun rows => OnlyValue.pure _
  refine OnlyValue.throw.ite ((OnlyValue.mapM (fun k => jsonString_value _) _).bind fun key => ?_)
  exact OnlyValue.throw.ite ((jsonNumber_value _).bind fun v => OnlyValue.pure _)

theorem readCsvRow_value (parse : String → Option K) (w : ℕ) (row : List String) :
    OnlyValue (readCsvRow parse w row) := by
  refine OnlyValue.throw.ite (OnlyValue.mapM (fun x => ?_) _)
  split
  · exact OnlyValue.throw
  · exact OnlyValue.pure _

theorem readCsvMc_value (parse : String → Option K) (l : List (List String)) :
    OnlyValue (readCsvMc parse l) := by
  unfold readCsvMc
  split
  · exact OnlyValue.pure _
  · refine OnlyValue.throw.ite (OnlyValue.throw.ite (OnlyValue.throw.ite ?_))
    exact (OnlyValue.mapM (readCsvRow_value _ _) _).bind fun M => OnlyValue.pure _

theorem readCsvLabel_value (s : String) : OnlyValue (readCsvLabel s) := by
  unfold readCsvLabel
  exact OnlyValue.throw.ite ((OnlyValue.pure _).ite ((OnlyValue.pure _).ite OnlyValue.throw))

theorem readCsvHmm_value (parse : String → Option K) (l : List (List String)) :
    OnlyValue (readCsvHmm parse l) := by
  unfold readCsvHmm
  split
  · exact OnlyValue.pure _
  · refine (OnlyValue.mapM readCsvLabel_value _).bind fun labels => ?_
    refine OnlyValue.throw.ite (OnlyValue.throw.ite ?_)
    exact (OnlyValue.mapM (readCsvRow_value _ _) _).bind fun M => OnlyValue.pure _

section
variable [Field K] [LinearOrder K]

omit [Field K] [LinearOrder K] in
theorem setEntry_value (rows columns : List String) (M : Matrix (Fin rows.length) (Fin columns.length) K)
    (a b : String) (v : K) : OnlyValue (setEntry rows columns M a b v) :=
  (OnlyValue.pure _).ite OnlyValue.throw

theorem chainOfDict_value (d : PyDict K) : OnlyValue (chainOfDict d) := by
  refine OnlyValue.throw.ite ((OnlyValue.foldlM (fun M x => ?_) _ _).bind fun M => ?_)
  · split
    · exact setEntry_value _ _ _ _ _ _
    · exact OnlyValue.throw
  · exact OnlyValue.throw.ite (OnlyValue.pure _)

theorem modelOfDict_value (d : PyDict K) : OnlyValue (modelOfDict d) := by
  refine OnlyValue.throw.ite (OnlyValue.throw.ite ((OnlyValue.foldlM (fun M x => ?_) _ _).bind fun M => ?_))
  · split
    · exact ((setEntry_value _ _ _ _ _ _).bind fun E => OnlyValue.pure _).ite
        ((setEntry_value _ _ _ _ _ _).bind fun E => OnlyValue.pure _)
    · exact OnlyValue.throw
  · exact OnlyValue.throw.ite (OnlyValue.throw.ite (OnlyValue.throw.ite (OnlyValue.pure _)))

/-- A file that does not represent a chain is rejected with a `ValueError`, whatever it contains; integers
are converted exactly. -/
theorem C181_chain (parse : String → Option K) (f : FileData K) (e : Err)
    (h : mcFromFile parse f = .error e) : e = .valueError := by
  revert h
  refine (?_ : OnlyValue (mcFromFile parse f)) e
  unfold mcFromFile
  split
  · exact OnlyValue.throw.ite ((readTxt_value _ _ _).bind fun d => chainOfDict_value d)
  · exact (readCsvMc_value _ _).bind fun d => chainOfDict_value d
  · exact (readJson_value _ _).bind fun d => chainOfDict_value d
  · exact (readXml_value _ _ _).bind fun d => chainOfDict_value d

/-- The same for hidden Markov models. -/
theorem C181_hidden (parse : String → Option K) (f : FileData K) (e : Err)
    (h : hmmFromFile parse f = .error e) : e = .valueError := by
  revert h
  refine (?_ : OnlyValue (hmmFromFile parse f)) e
  unfold hmmFromFile
  split
  · exact OnlyValue.throw.ite ((readTxt_value _ _ _).bind fun d => modelOfDict_value d)
  · exact (readCsvHmm_value _ _).bind fun d => modelOfDict_value d
  · exact (readJson_value _ _).bind fun d => modelOfDict_value d
  · exact (readXml_value _ _ _).bind fun d => modelOfDict_value d

end

/-! ## Integers that are too large -/

/-- The probability of an object is an integer that does not fit. -/
def TooLarge (o : List (String × PyVal K)) : Prop :=
  ∃ z : ℤ, o.lookup "probability" = some (.int z) ∧ 2 ^ 1024 - 2 ^ 970 ≤ |z|

theorem usually_bind {α β : Type} (r : R α) (f : α → R β) :
    usually (r >>= f) = usually r >>= fun a => usually (f a) := by
  cases r <;> rfl

theorem usually_ok {α : Type} (r : R α) (a : α) : usually r = .ok a ↔ r = .ok a := by
  cases r <;> simp [usually, Except.mapError]

theorem usually_error {α : Type} (r : R α) (e : FileErr) :
    usually r = .error e ↔ ∃ e', r = .error e' ∧ e = .usual e' := by
  cases r <;> simp [usually, Except.mapError, eq_comm]

theorem jsonFloat_small [Field K] (o : List (String × PyVal K)) (h : ¬ TooLarge o) :
    jsonFloat (o.lookup "probability") = usually (jsonNumber (o.lookup "probability")) := by
  unfold jsonFloat
  split
  · rename_i z hz
    have : fitsFloat z = true := by
      by_contra h2
      exact h ⟨z, hz, not_lt.1 fun h3 => h2 (decide_eq_true h3)⟩
    rw [if_pos this, hz]
    rfl
  · rfl

theorem jsonFloat_large [Field K] (o : List (String × PyVal K)) (h : TooLarge o) :
    jsonFloat (o.lookup "probability") = (.error .overflow : Except FileErr K) := by
  obtain ⟨z, hz, hl⟩ := h
  rw [hz]
  have : fitsFloat z = false := decide_eq_false (not_lt.2 hl)
  simp only [jsonFloat, this]
  rfl

theorem loadJsonObject_small [Field K] (mc : Bool) (o : List (String × PyVal K)) (h : ¬ TooLarge o) :
    loadJsonObject mc o = usually (readJsonObject mc o) := by
  unfold loadJsonObject readJsonObject
  split
  · rfl
  · rw [usually_bind]
    congr 1
    funext key
    split
    · rfl
    · rw [usually_bind, jsonFloat_small o h]
      rfl

theorem loadJsonObject_cases [Field K] (mc : Bool) (o : List (String × PyVal K)) :
    loadJsonObject mc o = usually (readJsonObject mc o) ∨
      (loadJsonObject mc o = .error .overflow ∧ TooLarge o) := by
  by_cases h : TooLarge o
  · unfold loadJsonObject readJsonObject
    split
    · exact .inl rfl
    · rw [usually_bind]
      cases (attributeNames mc).mapM fun k => jsonString (o.lookup k) with
      | error e => exact .inl rfl
      | ok key =>
        change (if _ then _ else _) = usually (if _ then _ else _) ∨ ((if _ then _ else _) = _ ∧ _)
        split
        · exact .inl rfl
        · rw [jsonFloat_large o h]
          exact .inr ⟨rfl, h⟩
  · exact .inl (loadJsonObject_small mc o h)

theorem loadJson_cases [Field K] (mc : Bool) (l : List (List (String × PyVal K))) :
    loadJson mc l = usually (readJson mc l) ∨
      (loadJson mc l = .error .overflow ∧ ∃ o ∈ l, TooLarge o) := by
  have key : l.mapM (loadJsonObject mc) = usually (l.mapM (readJsonObject mc)) ∨
      (l.mapM (loadJsonObject mc) = .error .overflow ∧ ∃ o ∈ l, TooLarge o) := by
    induction l with
    | nil => exact .inl rfl
    | cons o l ih =>
      rw [List.mapM_cons, List.mapM_cons]
      rcases loadJsonObject_cases mc o with ho | ⟨ho, hl⟩
      · rw [ho]
        rcases hr : readJsonObject mc o with e | a
        · exact .inl rfl
        · rcases ih with ih | ⟨ih, o', ho', hl⟩
          · rw [ih]
            left
            cases l.mapM (readJsonObject mc) <;> rfl
          · rw [ih]
            exact .inr ⟨rfl, o', by simp [ho'], hl⟩
      · rw [ho]
        exact .inr ⟨rfl, o, by simp, hl⟩
  unfold loadJson readJson
  rcases key with h | ⟨h, ho⟩
  · rw [h, usually_bind]
    exact .inl rfl
  · rw [h]
    exact .inr ⟨rfl, ho⟩

variable [Field K] [LinearOrder K]

/-- `from_file` behaves as if integers were converted exactly, unless it fails with an `OverflowError`; in
this case the file is a JSON file in which some probability is an integer that does not fit. -/
theorem C181_load (parse : String → Option K) (f : FileData K) :
    mcLoadFile parse f = usually (mcFromFile parse f) ∨
      (mcLoadFile parse f = .error .overflow ∧ ∃ l, f = .json l ∧ ∃ o ∈ l, TooLarge o) := by
  cases f with
  | json l =>
    change (loadJson true l >>= fun d => usually (chainOfDict d)) =
      usually (readJson true l >>= fun d => chainOfDict d) ∨
      ((loadJson true l >>= fun d => usually (chainOfDict d)) = _ ∧ _)
    rw [usually_bind]
    rcases loadJson_cases (K := K) true l with h | ⟨h, ho⟩
    · rw [h]
      exact .inl rfl
    · rw [h]
      exact .inr ⟨rfl, l, rfl, ho⟩
  | txt l => exact .inl rfl
  | csv l => exact .inl rfl
  | xml l => exact .inl rfl

/-- The same for hidden Markov models. -/
theorem C181_load_hidden (parse : String → Option K) (f : FileData K) :
    hmmLoadFile parse f = usually (hmmFromFile parse f) ∨
      (hmmLoadFile parse f = .error .overflow ∧ ∃ l, f = .json l ∧ ∃ o ∈ l, TooLarge o) := by
  cases f with
  | json l =>
    change (loadJson false l >>= fun d => usually (modelOfDict d)) =
      usually (readJson false l >>= fun d => modelOfDict d) ∨
      ((loadJson false l >>= fun d => usually (modelOfDict d)) = _ ∧ _)
    rw [usually_bind]
    rcases loadJson_cases (K := K) false l with h | ⟨h, ho⟩
    · rw [h]
      exact .inl rfl
    · rw [h]
      exact .inr ⟨rfl, l, rfl, ho⟩
  | txt l => exact .inl rfl
  | csv l => exact .inl rfl
  | xml l => exact .inl rfl

/-- The only exceptions of `from_file` for the contents of a file are the `ValueError` of the documentation
and, for JSON files with integers that do not fit, the `OverflowError`. -/
theorem C181_kinds (parse : String → Option K) (f : FileData K) (e : FileErr)
    (h : mcLoadFile parse f = .error e ∨ hmmLoadFile parse f = .error e) :
    e = .usual .valueError ∨ (e = .overflow ∧ ∃ l, f = .json l ∧ ∃ o ∈ l, TooLarge o) := by
  rcases h with h | h
  · rcases C181_load parse f with h2 | ⟨h2, ho⟩
    · rw [h2, usually_error] at h
      obtain ⟨e', h, rfl⟩ := h
      exact .inl (by rw [C181_chain parse f e' h])
    · rw [h2] at h
      cases h
      exact .inr ⟨rfl, ho⟩
  · rcases C181_load_hidden parse f with h2 | ⟨h2, ho⟩
    · rw [h2, usually_error] at h
      obtain ⟨e', h, rfl⟩ := h
      exact .inl (by rw [C181_hidden parse f e' h])
    · rw [h2] at h
      cases h
      exact .inr ⟨rfl, ho⟩

/-- A chain that is read is the one of the model with exact integers, so the other theorems on files apply
to it. -/
theorem C181_read (parse : String → Option K) (f : FileData K) (c : MC K)
    (h : mcLoadFile parse f = .ok c) : mcFromFile parse f = .ok c := by
  rcases C181_load parse f with h2 | ⟨h2, -⟩
  · rwa [h2, usually_ok] at h
  · rw [h2] at h
    cases h

/-! ## A file that is rejected with an `OverflowError` -/

/-- A JSON file with a huge probability. -/
def hugeFile : FileData ℚ := .json [
  [("state_from", .str "a"), ("state_to", .str "a"), ("probability", .int (2 ^ 1024))],
  [("state_from", .str "b"), ("state_to", .str "b"), ("probability", .int 1)]]

/-- The documentation is violated: the exception is not a `ValueError`. -/
theorem C181_overflow (parse : String → Option ℚ) : mcLoadFile parse hugeFile = .error .overflow := by
  have h : loadJsonObject (K := ℚ) true
      [("state_from", .str "a"), ("state_to", .str "a"), ("probability", .int (2 ^ 1024))] =
      .error .overflow := by
    have h1 : jsonFloat (K := ℚ) (List.lookup "probability"
        [("state_from", .str "a"), ("state_to", .str "a"), ("probability", .int (2 ^ 1024))]) =
        .error .overflow :=
      jsonFloat_large _ ⟨2 ^ 1024, rfl, by norm_num⟩
    unfold loadJsonObject
    rw [if_neg (by decide +kernel), h1]
    rfl
  simp only [mcLoadFile, hugeFile, loadJson, List.mapM_cons, h]
  rfl

/-- A file with a bad number is rejected with the `ValueError`, a good one is read. -/
def badFile : FileData ℚ := .json [
  [("state_from", .str "a"), ("state_to", .str "a"), ("probability", .str "1")],
  [("state_from", .str "b"), ("state_to", .str "b"), ("probability", .int 1)]]

example : mcLoadFile (fun _ => none) badFile = .error (.usual .valueError) := by rfl

example : (mcLoadFile (K := ℚ) (fun _ => none) (.json [
    [("state_from", .str "a"), ("state_to", .str "a"), ("probability", .int 1)],
    [("state_from", .str "b"), ("state_to", .str "b"), ("probability", .int 1)]])).toOption.isSome = true := by
  decide +kernel

end Verif
