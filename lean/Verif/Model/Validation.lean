import Verif.Model.PyVal
import Mathlib.Data.List.Range
import Mathlib.Data.List.Sort

/-!
# Argument validation

Models `/repo/pydtmc/validation.py`. Error messages are not modelled; the API wraps every error
raised here into `ValidationError` (`utilities.py:192-202`).
-/

namespace Verif

/-- The exception classes raised by the validators. -/
inductive Err
  | typeError
  | valueError
deriving DecidableEq, Repr

/-- Result of a validator: a value or an exception. -/
abbrev R (α : Type) := Except Err α

section limits
variable {α : Type} [LinearOrder α]

/-- `_validate_limits` (`validation.py:107-135`). A limit is `(bound, flag)`; the flag is called
`*_limit_included` in the code but `True` makes the bound *exclusive*. -/
def validateLimits (value : α) (lower upper : Option (α × Bool)) : R Unit := do
  match lower with
  | some (b, incl) =>
    if incl then
      if value ≤ b then throw .valueError
    else
      if value < b then throw .valueError
  | none => pure ()
  match upper with
  | some (b, incl) =>
    if incl then
      if value ≥ b then throw .valueError
    else
      if value > b then throw .valueError
  | none => pure ()

end limits

variable {K : Type} [Field K] [LinearOrder K]

/-- `validate_integer` (`validation.py:454-463`). -/
def validateInteger (v : PyVal K) (lower upper : Option (ℤ × Bool)) : R ℤ :=
  match v with
  | .int z => do validateLimits z lower upper; pure z
  | _ => throw .typeError

/-- `validate_float` (`validation.py:333-345`). -/
def validateFloat (v : PyVal K) (lower upper : Option (K × Bool)) : R K :=
  match v with
  | .float (.fin x) => do validateLimits x lower upper; pure x
  | .float _ => throw .valueError
  | _ => throw .typeError

/-- Position of a label, `labels.index(value) if value in labels else -1`
(`validation.py:507`, `:548`). -/
def labelIndex (labels : List String) (s : String) : Option ℕ :=
  if s ∈ labels then some (labels.idxOf s) else none

/-- `validate_label` (`validation.py:490-511`). -/
def validateLabel (v : PyVal K) (labels : List String) : R ℕ :=
  if v.isInteger then
    if v.asInt < 0 ∨ v.asInt > (labels.length : ℤ) - 1 then throw .valueError
    else pure v.asInt.toNat
  else if v.isString then
    match labelIndex labels v.asStr with
    | some k => pure k
    | none => throw .valueError
  else throw .typeError

/-- The integer branch shared by `validate_labels_current` and `validate_sequence`
(`validation.py:541-544`, `:874-877`): all elements are integers and in range. -/
def resolveInts (l : List (PyVal K)) (n : ℕ) : R (List ℕ) :=
  if l.any (fun v => v.asInt < 0 ∨ v.asInt ≥ n) then throw .valueError
  else pure (l.map fun v => v.asInt.toNat)

/-- The string branch (`validation.py:548-551`, `:881-884`): labels are replaced by their
positions, unknown ones are rejected. -/
def resolveStrs (l : List (PyVal K)) (labels : List String) : R (List ℕ) :=
  match l.mapM (fun v => labelIndex labels v.asStr) with
  | some ks => pure ks
  | none => throw .valueError

/-- Elements must be all integers or all non-blank strings, and are replaced by positions
(`validation.py:530-551`, `:865-884`, `:766-781`). -/
def resolveList (l : List (PyVal K)) (labels : List String) : R (List ℕ) :=
  if l.all PyVal.isInteger then resolveInts l labels.length
  else if l.all PyVal.isString then resolveStrs l labels
  else throw .typeError

/-- The length test of `validate_labels_current` (`validation.py:561-574`); `true` means that an
exception is raised. -/
def lengthRejected (len maximumLength : ℕ) (minimumLength : Option ℕ) : Bool :=
  match minimumLength with
  | none => decide (len > maximumLength)
  | some m =>
    if m = 1 then decide (len > maximumLength)
    else decide (len < m) || decide (len > maximumLength)

/-- `validate_labels_current` (`validation.py:514-589`). -/
def validateLabelsCurrent (v : PyVal K) (labels : List String) (subset : Bool)
    (minimumLength : Option ℕ) : R (List ℕ) :=
  match v with
  | .int z =>
    if z < 0 ∨ z > (labels.length : ℤ) - 1 then throw .valueError else pure [z.toNat]
  | .list l =>
    resolveList l labels >>= fun value =>
      if ¬ value.Nodup then throw .valueError
      else if value.length = 0 then throw .valueError
      else if lengthRejected value.length
          (if subset then labels.length - 1 else labels.length) minimumLength then throw .valueError
      else pure (value.insertionSort (· ≤ ·))
  | .str s =>
    if nonBlank s then
      match labelIndex labels s with
      | some k => pure [k]
      | none => throw .valueError
    else throw .typeError
  | _ => throw .typeError

/-- `validate_labels_input` (`validation.py:592-613`). -/
def validateLabelsInput (v : PyVal K) (size : Option ℕ) : R (List String) :=
  match v with
  | .list l =>
    if ¬ l.all PyVal.isString then throw .typeError
    else
      let labels := l.map PyVal.asStr
      if labels.length < 2 then throw .valueError
      else if ¬ labels.Nodup then throw .valueError
      else
        match size with
        | some n => if labels.length ≠ n then throw .valueError else pure labels
        | none => pure labels
  | _ => throw .valueError

/-- `validate_sequence` (`validation.py:857-886`). -/
def validateSequence (v : PyVal K) (labels : List String) : R (List ℕ) :=
  match v with
  | .list l =>
    if l.length < 2 then throw .valueError
    else resolveList l labels
  | _ => throw .valueError

/-- The groups of a partition argument, `list(partition)` for each element
(`validation.py:756-764`). -/
def asGroup : PyVal K → R (List (PyVal K))
  | .list l => pure l
  | _ => throw .typeError

/-- Cutting the flattened list into consecutive groups (`validation.py:788-794`). -/
def cutGroups {α : Type} : List ℕ → List α → List (List α)
  | [], _ => []
  | g :: gs, l => l.take g :: cutGroups gs (l.drop g)

/-- `validate_partitions` (`validation.py:738-796`). -/
def validatePartitions (v : PyVal K) (labels : List String) : R (List (List ℕ)) :=
  match v with
  | .list parts =>
    if parts.length < 2 ∨ parts.length ≥ labels.length then throw .valueError
    else
      parts.mapM asGroup >>= fun groups =>
      resolveList groups.flatten labels >>= fun value =>
        if ¬ value.Nodup ∨ value.length ≠ labels.length ∨ value ≠ List.range labels.length then
          throw .valueError
        else pure (cutGroups (groups.map List.length) value)
  | _ => throw .valueError

/-- `np.isfinite(x) and np.isreal(x) and 0.0 <= x <= 1.0` (`validation.py:1076`). -/
def Flt.inUnit : Flt K → Bool
  | .fin x => decide (0 ≤ x) && decide (x ≤ 1)
  | _ => false

/-- The real number in a finite float (other floats are excluded before it is used). -/
def Flt.val : Flt K → K
  | .fin x => x
  | _ => 0

/-- An array with `m` rows and `n` columns as a matrix. -/
def toMat (rows : List (List (Flt K))) (m n : ℕ) : Matrix (Fin m) (Fin n) K :=
  fun i j => ((rows.getD i []).getD j .nan).val

/-- All rows have `n` entries: NumPy's `shape[1] = n` for a non-empty rectangular array. -/
def hasWidth (rows : List (List (Flt K))) (n : ℕ) : Bool := rows.all fun r => r.length == n

/-- Shape and content tests shared by `validate_transition_matrix` and
`validate_emission_matrix`: entries in `[0,1]` and row sums close to one
(`validation.py:1076-1080`, `:259-263`). -/
def checkStochastic (rows : List (List (Flt K))) (m n : ℕ) : R (Matrix (Fin m) (Fin n) K) :=
  if ¬ rows.all (fun r => r.all Flt.inUnit) then throw .valueError
  else if ¬ allcloseVec (fun i => ∑ j, toMat rows m n i j) (fun _ => 1) then throw .valueError
  else pure (toMat rows m n)

/-- `validate_transition_matrix` (`validation.py:1063-1082`). The result is the size together
with the matrix. -/
def validateTransitionMatrix (v : PyVal K) (size : Option ℕ) :
    R ((n : ℕ) × Matrix (Fin n) (Fin n) K) :=
  match extractNumeric v with
  | some (.mat rows) =>
    if rows.length < 2 ∨ ¬ hasWidth rows rows.length then throw .valueError
    else if size.any (fun n => rows.length != n) then throw .valueError
    else do
      let p ← checkStochastic rows rows.length rows.length
      pure ⟨rows.length, p⟩
  | some (.vec _) => throw .valueError
  | none => throw .typeError

/-- `validate_emission_matrix` (`validation.py:249-265`): `size` rows and at least two columns. -/
def validateEmissionMatrix (v : PyVal K) (size : ℕ) :
    R ((k : ℕ) × Matrix (Fin size) (Fin k) K) :=
  match extractNumeric v with
  | some (.mat rows) =>
    let k := (rows.headD []).length
    if rows.length ≠ size ∨ k < 2 ∨ ¬ hasWidth rows k then throw .valueError
    else do
      let e ← checkStochastic rows size k
      pure ⟨k, e⟩
  | some (.vec _) => throw .valueError
  | none => throw .typeError

/-- Decimal label `f'{prefix}{i:d}'` for `i` in `range(1, count + 1)`
(`create_labels`, `utilities.py:133-137`). -/
def createLabels (count : ℕ) (pre : String) : List String :=
  (List.range count).map fun i => pre ++ toString (i + 1)

end Verif
