import Verif.Model.Validation

/-!
# Labels from data

Models `create_labels_from_data` of `/repo/pydtmc/utilities.py`, which derives labels from a sequence of
observations. `set` is the list without duplicates; strings are compared by code points as in Python.
-/

namespace Verif

variable {K : Type}

/-- The labels for integers or strings (`utilities.py:145-150`) and `len(set(data))` (`:157`). -/
def dataLabels (l : List (PyVal K)) (pre : String) : Option (List String × ℕ) :=
  if l.all PyVal.isInteger then
    let values := (l.map PyVal.asInt).dedup
    some (createLabels values.length pre, values.length)
  else if l.all PyVal.isString then
    let values := (l.map PyVal.asStr).dedup
    some ((values.insertionSort (· ≤ ·)).map fun s => if pre.length > 0 then pre ++ "_" ++ s else s, values.length)
  else none

/-- `create_labels_from_data` (`utilities.py:140-162`). -/
def createLabelsFromData (v : PyVal K) (pre : String) : Option (List String) :=
  match v with
  | .list l =>
    match dataLabels l pre with
    | none => none
    | some (labels, unique) =>
      if labels.length < 2 then none
      else if unique < labels.length then none
      else some labels
  | _ => none

end Verif
