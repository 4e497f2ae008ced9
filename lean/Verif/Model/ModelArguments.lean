import Verif.Model.Validation

/-!
# Validation of arguments that are models

Models the validators of `/repo/pydtmc/validation.py` that look at the class of their argument by its
name.
-/

namespace Verif

variable {K : Type} [Field K] [LinearOrder K]

/-- A Python class: `__module__`, `__name__` and the full names of `__bases__`. The classes considered are
not nested, so `__qualname__` is `__name__`. -/
structure PyClass where
  module : String
  name : String
  bases : List String
deriving DecidableEq

/-- `get_full_name` of a class (`utilities.py:257-274`). -/
def PyClass.fullName (c : PyClass) : String :=
  if c.module = "builtins" then c.name else c.module ++ "." ++ c.name

/-- A Python value as the validators see it: whether it is `None`, its class, what `value.__module__` is
(`none` if there is no such attribute, as for numbers and strings), and the attribute `size` of chains. -/
structure PyObj where
  isNone : Bool
  cls : PyClass
  module : Option String
  size : ℕ

/-- `validate_hidden_markov_model` (`validation.py:411-416`). The `AttributeError` for values without
`__module__` is counted as a type error; both become a `ValidationError`. -/
def validateHiddenModel (v : PyObj) : R PyObj :=
  if v.isNone then throw .typeError
  else match v.module with
    | none => throw .typeError
    | some m =>
      if m ++ "." ++ v.cls.name = "pydtmc.hidden_markov_model.HiddenMarkovModel" then pure v
      else throw .typeError

/-- `validate_markov_chain` (`validation.py:616-624`). -/
def validateChain (v : PyObj) (size : Option ℕ) : R PyObj :=
  if v.isNone then throw .typeError
  else match v.module with
    | none => throw .typeError
    | some m =>
      if m ++ "." ++ v.cls.name = "pydtmc.markov_chain.MarkovChain" then
        match size with
        | none => pure v
        | some n => if v.size ≠ n then throw .valueError else pure v
      else throw .typeError

/-- `validate_model` (`validation.py:697-716`). -/
def validateModel (v : PyObj) : R PyObj :=
  if v.isNone then throw .typeError
  else
    let m := v.module.getD v.cls.module
    if ¬ "pydtmc.".toList <+: m.toList then throw .typeError
    else match v.cls.bases with
      | [] => throw .typeError
      | b :: _ => if b ≠ "pydtmc.base_classes.Model" then throw .typeError else pure v

/-- The lists of models (`validate_models`, `validation.py:719-735`; `validate_markov_chains`,
`validation.py:627-643`; `validate_hidden_markov_models`, `validation.py:419-435`). `none` stands for a
value that is not a list. -/
def validateAll (f : PyObj → R PyObj) (l : Option (List PyObj)) : R (List PyObj) :=
  match l with
  | none => throw .valueError
  | some l =>
    if l.length < 2 then throw .valueError
    else if l.all fun v => (f v).toBool then pure l else throw .valueError

/-- `validate_dpi` (`validation.py:232-245`). -/
def validateDpi (v : PyVal K) : R ℤ :=
  match v with
  | .int z => if z ∈ ([75, 100, 150, 200, 250, 300, 600] : List ℤ) then pure z else throw .valueError
  | _ => throw .typeError

/-! ## The classes of the library -/

/-- `Model` (`base_classes.py:21`). -/
def clsModel : PyClass := ⟨"pydtmc.base_classes", "Model", ["abc.ABC"]⟩
/-- `MarkovChain` (`markov_chain.py:197`). -/
def clsChain : PyClass := ⟨"pydtmc.markov_chain", "MarkovChain", ["pydtmc.base_classes.Model"]⟩
/-- `HiddenMarkovModel` (`hidden_markov_model.py:131`). -/
def clsHidden : PyClass :=
  ⟨"pydtmc.hidden_markov_model", "HiddenMarkovModel", ["pydtmc.base_classes.Model"]⟩
/-- `ValidationError` (`exceptions.py:12`). -/
def clsError : PyClass := ⟨"pydtmc.exceptions", "ValidationError", ["Exception"]⟩
/-- `cached_property` (`decorators.py:26`). -/
def clsCached : PyClass := ⟨"pydtmc.decorators", "cached_property", ["property"]⟩
/-- `object_mark` (`decorators.py:88`). -/
def clsMark : PyClass := ⟨"pydtmc.decorators", "object_mark", ["object"]⟩

/-- The classes that are defined by the library. -/
def libraryClasses : List PyClass := [clsModel, clsChain, clsHidden, clsError, clsCached, clsMark]

end Verif
