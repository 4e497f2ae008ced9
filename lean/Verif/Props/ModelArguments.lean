import Verif.Model.ModelArguments
import Verif.Lemmas.Validation

/-!
# C127: arguments that are models
-/

set_option linter.unusedSectionVars false

namespace Verif

variable {K : Type} [Field K] [LinearOrder K]

/-- An instance of a class, whose `__module__` is that of the class. Classes whose module starts with
`pydtmc.` are those of the library. Names of classes contain no dots. -/
structure IsInstance (v : PyObj) : Prop where
  notNone : v.isNone = false
  module : v.module = some v.cls.module
  name : '.' ∉ v.cls.name.toList
  library : "pydtmc.".toList <+: v.cls.module.toList → v.cls ∈ libraryClasses

/-- The full names of the classes of the library differ from one another. -/
theorem library_chain : ∀ c ∈ libraryClasses,
    c.module ++ "." ++ c.name = "pydtmc.markov_chain.MarkovChain" → c = clsChain := by
  decide +kernel

theorem library_hidden : ∀ c ∈ libraryClasses,
    c.module ++ "." ++ c.name = "pydtmc.hidden_markov_model.HiddenMarkovModel" → c = clsHidden := by
  decide +kernel

theorem library_model : ∀ c ∈ libraryClasses,
    c.bases.head? = some "pydtmc.base_classes.Model" → c = clsChain ∨ c = clsHidden := by
  decide +kernel

theorem dot_cancel {a b c d : List Char} (hb : '.' ∉ b) (hd : '.' ∉ d) (h : a ++ '.' :: b = c ++ '.' :: d) :
    a = c ∧ b = d := by
  rw [List.append_eq_append_iff] at h
  rcases h with ⟨l, h1, h2⟩ | ⟨l, h1, h2⟩
  · cases l with
    | nil => simp_all
    | cons x l =>
      rw [List.cons_append, List.cons.injEq] at h2
      exact absurd (by rw [h2.2]; simp) hb
  · cases l with
    | nil => simp_all
    | cons x l =>
      rw [List.cons_append, List.cons.injEq] at h2
      exact absurd (by rw [h2.2]; simp) hd

/-- The comparison of full names finds the class. -/
theorem IsInstance.fullName {v : PyObj} (hv : IsInstance v) {c : PyClass} (hc : c ∈ libraryClasses)
    (hu : ∀ d ∈ libraryClasses, d.module ++ "." ++ d.name = c.module ++ "." ++ c.name → d = c)
    (hn : '.' ∉ c.name.toList) (hp : "pydtmc.".toList <+: c.module.toList) :
    v.cls.module ++ "." ++ v.cls.name = c.module ++ "." ++ c.name ↔ v.cls = c := by
  constructor
  · intro h
    have h1 := congrArg String.toList h
    simp only [String.toList_append] at h1
    have h2 : v.cls.module.toList ++ '.' :: v.cls.name.toList = c.module.toList ++ '.' :: c.name.toList := by
      simpa using h1
    obtain ⟨h3, -⟩ := dot_cancel hv.name hn h2
    exact hu _ (hv.library (h3 ▸ hp)) h
  · rintro rfl
    rfl

theorem IsInstance.chain {v : PyObj} (hv : IsInstance v) :
    v.cls.module ++ "." ++ v.cls.name = "pydtmc.markov_chain.MarkovChain" ↔ v.cls = clsChain :=
  hv.fullName (c := clsChain) (by decide +kernel) library_chain (by decide +kernel) (by decide +kernel)

theorem IsInstance.hidden {v : PyObj} (hv : IsInstance v) :
    v.cls.module ++ "." ++ v.cls.name = "pydtmc.hidden_markov_model.HiddenMarkovModel" ↔ v.cls = clsHidden :=
  hv.fullName (c := clsHidden) (by decide +kernel) library_hidden (by decide +kernel) (by decide +kernel)

/-- An argument that must be a chain is accepted iff it is an instance of `MarkovChain` itself, of the
required size. It is passed on unchanged. -/
theorem C127_chain {v : PyObj} (hv : IsInstance v) (size : Option ℕ) (w : PyObj) :
    validateChain v size = .ok w ↔ v.cls = clsChain ∧ (∀ n, size = some n → v.size = n) ∧ w = v := by
  unfold validateChain
  rw [hv.notNone, hv.module]
  simp only [Bool.false_eq_true, if_false, hv.chain]
  by_cases h : v.cls = clsChain
  · rw [if_pos h]
    cases size with
    | none => simp [h, eq_comm (a := v) (b := w)]
    | some n =>
      simp only [R.ite_throw, R.pure_ok, not_not]
      simp [h, eq_comm (a := v) (b := w)]
  · simp [h]

/-- An argument that must be a hidden Markov model is accepted iff it is an instance of
`HiddenMarkovModel` itself. -/
theorem C127_hidden {v : PyObj} (hv : IsInstance v) (w : PyObj) :
    validateHiddenModel v = .ok w ↔ v.cls = clsHidden ∧ w = v := by
  unfold validateHiddenModel
  rw [hv.notNone, hv.module]
  simp only [Bool.false_eq_true, if_false, hv.hidden]
  by_cases h : v.cls = clsHidden
  · simp [h, eq_comm (a := v) (b := w)]
  · simp [h]

/-- An argument that must be a model is accepted iff it is an instance of one of these two classes. -/
theorem C127_model {v : PyObj} (hv : IsInstance v) (w : PyObj) :
    validateModel v = .ok w ↔ (v.cls = clsChain ∨ v.cls = clsHidden) ∧ w = v := by
  unfold validateModel
  rw [hv.notNone, hv.module]
  simp only [Bool.false_eq_true, if_false, Option.getD_some, R.ite_throw, not_not]
  constructor
  · rintro ⟨h1, h2⟩
    have hl := hv.library h1
    cases hb : v.cls.bases with
    | nil => rw [hb] at h2; cases h2
    | cons b l =>
      rw [hb] at h2
      simp only [R.ite_throw, R.pure_ok, not_not] at h2
      refine ⟨library_model _ hl ?_, h2.2.symm⟩
      rw [hb, h2.1]
      rfl
  · rintro ⟨h, rfl⟩
    refine ⟨?_, ?_⟩
    · rcases h with h | h <;> rw [h] <;> decide +kernel
    · have : w.cls.bases = ["pydtmc.base_classes.Model"] := by
        rcases h with h | h <;> rw [h] <;> rfl
      rw [this]
      simp

/-- The bases of the two classes and the name that is compared are the full name of `Model`; the full name
of a builtin class is its name, that of another class has its module in front. -/
theorem C127_names : clsChain.bases = [clsModel.fullName] ∧ clsHidden.bases = [clsModel.fullName] ∧
    (∀ c : PyClass, c.module = "builtins" → c.fullName = c.name) ∧
    (∀ c : PyClass, c.module ≠ "builtins" → c.fullName = c.module ++ "." ++ c.name) ∧
    ∀ {v : PyObj}, IsInstance v → ∀ w, validateModel v = .ok w →
      v.cls.bases.head? = some clsModel.fullName := by
  refine ⟨by decide +kernel, by decide +kernel, fun c h => if_pos h, fun c h => if_neg h, fun hv w h => ?_⟩
  rcases ((C127_model hv w).1 h).1 with h | h <;> rw [h] <;> decide +kernel

/-- `None` is never accepted. -/
theorem C127_none (v : PyObj) (h : v.isNone = true) (size : Option ℕ) :
    validateChain v size = .error .typeError ∧ validateHiddenModel v = .error .typeError ∧
      validateModel v = .error .typeError := by
  unfold validateChain validateHiddenModel validateModel
  rw [h]
  exact ⟨rfl, rfl, rfl⟩

/-- A list of models is accepted iff it has at least two elements and all of them are accepted. -/
theorem C127_list (f : PyObj → R PyObj) (l : Option (List PyObj)) (r : List PyObj) :
    validateAll f l = .ok r ↔ l = some r ∧ 2 ≤ r.length ∧ ∀ v ∈ r, ∃ w, f v = .ok w := by
  have hb : ∀ v, (f v).toBool = true ↔ ∃ w, f v = .ok w := fun v => by
    cases f v with
    | ok w => exact ⟨fun _ => ⟨w, rfl⟩, fun _ => rfl⟩
    | error e => exact ⟨(fun h => by cases h), (fun ⟨w, h⟩ => by cases h)⟩
  cases l with
  | none => simp [validateAll]
  | some l =>
    simp only [validateAll, R.ite_throw, Option.some.injEq, not_lt]
    constructor
    · rintro ⟨h1, h2⟩
      split at h2
      · rename_i h3
        rw [R.pure_ok] at h2
        subst h2
        rw [List.all_eq_true] at h3
        exact ⟨rfl, h1, fun v hv => (hb v).1 (h3 v hv)⟩
      · cases h2
    · rintro ⟨rfl, h1, h2⟩
      refine ⟨h1, ?_⟩
      rw [if_pos (List.all_eq_true.2 fun v hv => (hb v).2 (h2 v hv))]
      rfl

/-- Plots are made at one of seven resolutions. -/
theorem C127_dpi (v : PyVal K) (z : ℤ) : validateDpi v = .ok z ↔
    v = .int z ∧ (z = 75 ∨ z = 100 ∨ z = 150 ∨ z = 200 ∨ z = 250 ∨ z = 300 ∨ z = 600) := by
  unfold validateDpi
  cases v <;> simp
  rename_i y
  split
  · rename_i h
    rw [R.pure_ok]
    constructor
    · rintro rfl; exact ⟨rfl, by simpa using h⟩
    · rintro ⟨rfl, -⟩; rfl
  · rename_i h
    constructor
    · intro h; cases h
    · rintro ⟨rfl, h'⟩; exact absurd (by simpa using h') h

/-- An instance of `class Walk(MarkovChain)` in the module `__main__`. -/
def exSubclass : PyObj :=
  ⟨false, ⟨"__main__", "Walk", ["pydtmc.markov_chain.MarkovChain"]⟩, some "__main__", 3⟩

theorem exSubclass_instance : IsInstance exSubclass :=
  ⟨rfl, rfl, by decide +kernel, by decide +kernel⟩

/-- Instances of classes that the user derives from `MarkovChain` are rejected wherever a model is an
argument: they can be neither merged, nor compared, nor plotted. -/
theorem C127_subclass : (validateChain exSubclass none).toOption = none ∧
    (validateHiddenModel exSubclass).toOption = none ∧ (validateModel exSubclass).toOption = none := by
  refine ⟨?_, ?_, ?_⟩
  · cases h : validateChain exSubclass none with
    | error e => rfl
    | ok w => exact absurd ((C127_chain exSubclass_instance _ _).1 h).1 (by decide +kernel)
  · cases h : validateHiddenModel exSubclass with
    | error e => rfl
    | ok w => exact absurd ((C127_hidden exSubclass_instance _).1 h).1 (by decide +kernel)
  · cases h : validateModel exSubclass with
    | error e => rfl
    | ok w => exact absurd ((C127_model exSubclass_instance _).1 h).1 (by decide +kernel)

/-- A chain with three states. -/
def exChainObj : PyObj := ⟨false, clsChain, some "pydtmc.markov_chain", 3⟩

theorem exChainObj_instance : IsInstance exChainObj :=
  ⟨rfl, rfl, by decide +kernel, fun _ => by decide +kernel⟩

example : validateChain exChainObj (some 3) = .ok exChainObj :=
  (C127_chain exChainObj_instance _ _).2 ⟨rfl, fun _ h => by cases h; rfl, rfl⟩

example : validateAll validateModel (some [exChainObj, exChainObj]) = .ok [exChainObj, exChainObj] :=
  (C127_list _ _ _).2 ⟨rfl, le_refl 2, fun v hv => by
    simp only [List.mem_cons, List.not_mem_nil, or_false, or_self] at hv
    exact ⟨v, hv ▸ (C127_model exChainObj_instance _).2 ⟨Or.inl rfl, rfl⟩⟩⟩

end Verif
