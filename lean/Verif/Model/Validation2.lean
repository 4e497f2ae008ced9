import Verif.Model.Construct

/-!
# Further argument validators

Models the vector, matrix and enumeration validators of `/repo/pydtmc/validation.py`.
-/

namespace Verif

variable {K : Type} [Field K] [LinearOrder K]

/-- The entries of a list as a vector of length `n` (missing entries would be `0`; every use is
guarded by a length test). -/
def listVec (l : List K) (n : ℕ) : Fin n → K := fun i => l.getD i 0

/-- `validate_boolean` (`validation.py:138-143`). -/
def validateBoolean (v : PyVal K) : R Bool :=
  match v with
  | .bool b => pure b
  | _ => throw .typeError

/-- `validate_enumerator` (`validation.py:268-276`). -/
def validateEnumerator (v : PyVal K) (possible : List String) : R String :=
  match v with
  | .str s =>
    if ¬ nonBlank s then throw .typeError
    else if s ∉ possible then throw .valueError
    else pure s
  | _ => throw .typeError

/-- `np.isfinite(x)`. -/
def Flt.isFinite : Flt K → Bool
  | .fin _ => true
  | _ => false

/-- `np.isfinite(x) and x >= 0.0` (`validation.py:690`). -/
def Flt.isFiniteNonneg : Flt K → Bool
  | .fin x => decide (0 ≤ x)
  | _ => false

/-- `validate_matrix` without prescribed shape (`validation.py:670-693`): a square matrix of size
at least two with finite nonnegative entries. -/
def validateMatrix (v : PyVal K) : R ((n : ℕ) × Matrix (Fin n) (Fin n) K) :=
  match extractNumeric v with
  | some (.mat rows) =>
    if rows.length < 2 ∨ ¬ hasWidth rows rows.length then throw .valueError
    else if ¬ rows.all (fun r => r.all Flt.isFiniteNonneg) then throw .valueError
    else pure ⟨rows.length, toMat rows rows.length rows.length⟩
  | some (.vec _) => throw .valueError
  | none => throw .typeError

/-- `np.ravel` of a vector or one-row matrix; other shapes are rejected
(`validation.py:1104-1107`, `:843-846`, `:956-959`). -/
def ravel (allowEmpty : Bool) : NumArr K → R (List (Flt K))
  | .vec l => if l.length = 0 ∧ ¬ allowEmpty then throw .valueError else pure l
  | .mat [r] => pure r
  | .mat _ => throw .valueError

/-- `extract_numeric` followed by `ravel`. -/
def extractVector (allowEmpty : Bool) (v : PyVal K) : R (List (Flt K)) :=
  match extractNumeric v with
  | some a => ravel allowEmpty a
  | none => throw .typeError

/-- The kinds of vectors accepted by `validate_vector`. -/
inductive VectorType
  | unconstrained
  | annihilation
  | creation
  | stochastic
deriving DecidableEq

/-- The value of a number argument, `float(value)`. -/
def PyVal.toFlt : PyVal K → Flt K
  | .int z => .fin z
  | .float x => x
  | _ => .nan

/-- The constraints of `validate_vector` after conversion (`validation.py:1112-1122`). -/
def checkVector (l : List (Flt K)) (ty : VectorType) : R (List K) :=
  if ¬ l.all Flt.inUnit then throw .valueError
  else
    let r := l.map Flt.val
    if ty = .annihilation ∧ (r.isEmpty ∨ ¬ isclose (r.headD 0) 0) then throw .valueError
    else if ty = .creation ∧ (r.isEmpty ∨ ¬ isclose (r.getLastD 0) 0) then throw .valueError
    else if ty = .stochastic ∧ ¬ isclose r.sum 1 then throw .valueError
    else pure r

/-- `validate_vector` (`validation.py:1085-1124`). `flex` allows a single number, which is repeated
(only used with `unconstrained` and a size). An empty one-row matrix makes `value[0]` raise
`IndexError`; the model raises too. -/
def validateVector (v : PyVal K) (ty : VectorType) (flex : Bool) (size : Option ℕ) : R (List K) :=
  if flex ∧ v.isNumber then
    match size with
    | some n =>
      if ty ≠ .unconstrained then throw .valueError
      else checkVector (List.replicate n v.toFlt) ty
    | none => throw .valueError
  else
    extractVector false v >>= fun l =>
      if size.any (fun n => l.length != n) then throw .valueError
      else checkVector l ty

/-- `validate_rewards` (`validation.py:836-854`). -/
def validateRewards (v : PyVal K) (size : ℕ) : R (List K) :=
  extractVector false v >>= fun l =>
    if l.length ≠ size then throw .valueError
    else if ¬ l.all Flt.isFinite then throw .valueError
    else pure (l.map Flt.val)

/-- The indicator vector of a position (`validation.py:934-935`). -/
def oneHot (n k : ℕ) : List K := (List.range n).map fun i => if i = k then 1 else 0

/-- `validate_status` (`validation.py:922-970`). -/
def validateStatus (v : PyVal K) (labels : List String) : R (List K) :=
  match v with
  | .int z =>
    if z < 0 ∨ z > (labels.length : ℤ) - 1 then throw .valueError
    else pure (oneHot labels.length z.toNat)
  | .str s =>
    if nonBlank s then
      match labelIndex labels s with
      | some k => pure (oneHot labels.length k)
      | none => throw .valueError
    else throw .typeError
  | v =>
    extractVector true v >>= fun l =>
      if l.length ≠ labels.length then throw .valueError
      else if ¬ l.all Flt.inUnit then throw .valueError
      else if ¬ isclose (l.map Flt.val).sum 1 then throw .valueError
      else pure (l.map Flt.val)

/-- The value returned by `validate_boundary_condition`. -/
inductive BoundaryCondition (K : Type)
  | number (x : Flt K)
  | absorbing
  | reflecting

/-- Comparison `value < c` on floats: false for NaN. -/
def Flt.ltC (c : K) : Flt K → Bool
  | .fin x => decide (x < c)
  | .nan => false
  | .inf neg => neg

/-- Comparison `value > c` on floats: false for NaN. -/
def Flt.gtC (c : K) : Flt K → Bool
  | .fin x => decide (c < x)
  | .nan => false
  | .inf neg => !neg

/-- `validate_boundary_condition` (`validation.py:146-166`). -/
def validateBoundaryCondition (v : PyVal K) : R (BoundaryCondition K) :=
  if v.isNumber then
    if v.toFlt.ltC 0 ∨ v.toFlt.gtC 1 then throw .valueError else pure (.number v.toFlt)
  else
    match v with
    | .str s =>
      if ¬ nonBlank s then throw .typeError
      else if s = "absorbing" then pure .absorbing
      else if s = "reflecting" then pure .reflecting
      else throw .valueError
    | _ => throw .typeError

end Verif
