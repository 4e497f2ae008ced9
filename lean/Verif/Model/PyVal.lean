import Verif.Model.Numeric

/-!
# Python values handed to the validation layer

Models `/repo/pydtmc/utilities.py` lines 205-224 and 316-379 (type tests and `extract_numeric`).
-/

namespace Verif

/-- A Python/NumPy float: a finite real, NaN or an infinity. -/
inductive Flt (K : Type)
  | fin (x : K)
  | nan
  | inf (neg : Bool)

/-- A numeric NumPy array of one or two dimensions (rectangularity is checked where it is built
from lists; arrays of other ranks are rejected by every validator and are not represented). -/
inductive NumArr (K : Type)
  | vec (l : List (Flt K))
  | mat (rows : List (List (Flt K)))

/-- Argument values. Sparse matrices and data frames behave as `array` in `extract_numeric`
(`utilities.py:211-214`) and are not represented separately. -/
inductive PyVal (K : Type)
  | none
  | bool (b : Bool)
  | int (z : ℤ)
  | float (x : Flt K)
  | str (s : String)
  | list (l : List (PyVal K))
  | tuple (l : List (PyVal K))
  | array (a : NumArr K)

/-- The characters removed by Python's `str.strip()` and used as separators by `str.split()`. -/
def pyIsSpace (c : Char) : Bool :=
  let n := c.toNat
  (9 ≤ n && n ≤ 13) || (28 ≤ n && n ≤ 32) || n == 0x85 || n == 0xA0 || n == 0x1680 ||
  (0x2000 ≤ n && n ≤ 0x200A) || n == 0x2028 || n == 0x2029 || n == 0x202F || n == 0x205F ||
  n == 0x3000

/-- `len(s.strip()) > 0` (`utilities.py:372-374`). -/
def nonBlank (s : String) : Bool := s.toList.any fun c => !pyIsSpace c

namespace PyVal
variable {K : Type}

/-- `is_integer` (`utilities.py:347-349`): booleans are excluded. -/
def isInteger : PyVal K → Bool
  | .int _ => true
  | _ => false

/-- `is_float` (`utilities.py:331-333`). -/
def isFloat : PyVal K → Bool
  | .float _ => true
  | _ => false

/-- `is_list` (`utilities.py:352-354`). -/
def isList : PyVal K → Bool
  | .list _ => true
  | _ => false

/-- `is_string` (`utilities.py:372-374`). -/
def isString : PyVal K → Bool
  | .str s => nonBlank s
  | _ => false

/-- `is_number` (`utilities.py:357-359`). -/
def isNumber (v : PyVal K) : Bool := v.isFloat || v.isInteger

/-- `int(value)` on values that passed `is_integer`. -/
def asInt : PyVal K → ℤ
  | .int z => z
  | _ => 0

/-- The string inside a value that passed `is_string`. -/
def asStr : PyVal K → String
  | .str s => s
  | _ => ""

variable [Field K]

/-- The float a scalar becomes inside `np.array(...).astype(float)` (`utilities.py:207-222`). -/
def numEntry : PyVal K → Option (Flt K)
  | .int z => some (.fin z)
  | .float x => some x
  | .bool b => some (.fin (if b then 1 else 0))
  | _ => Option.none

/-- Whether a scalar is a boolean. -/
def isBool : PyVal K → Bool
  | .bool _ => true
  | _ => false

/-- The entries of a row of scalars. -/
def numRow : PyVal K → Option (List (Flt K))
  | .list l => l.mapM numEntry
  | _ => Option.none

/-- The scalars of a list of lists. -/
def scalars : PyVal K → List (PyVal K)
  | .list l => l
  | _ => []

end PyVal

variable {K : Type} [Field K]

/-- `extract_numeric(data, float)` (`utilities.py:205-224`) for lists and arrays. A list whose
elements are all lists becomes a matrix, ragged rows and non-numeric entries are rejected, and an
array made only of booleans is rejected because its dtype is not numeric. Nested lists of depth
three and more would become arrays of rank three, which every validator rejects; they are rejected
here already. -/
def extractNumeric : PyVal K → Option (NumArr K)
  | .array a => some a
  | .list [] => some (.vec [])
  | .list l =>
    if l.all PyVal.isList then
      match l.mapM PyVal.numRow with
      | some (r :: rows) =>
        if rows.all (fun r' => r'.length == r.length) then
          if (l.flatMap PyVal.scalars).all PyVal.isBool && !(l.flatMap PyVal.scalars).isEmpty then
            Option.none
          else some (.mat (r :: rows))
        else Option.none
      | _ => Option.none
    else if l.all PyVal.isBool then Option.none
    else (l.mapM PyVal.numEntry).map NumArr.vec
  | _ => Option.none

end Verif
