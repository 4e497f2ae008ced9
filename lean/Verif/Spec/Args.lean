import Verif.Model.PyVal

/-!
# Specification vocabulary: argument values

Only the datatype of Python values is shared with the model.
-/

namespace Verif

variable {K : Type}

/-- What it means for an argument to name state `i`: an integer equal to `i`, or the label of
`i`. -/
def Names (labels : List String) (v : PyVal K) (i : ℕ) : Prop :=
  (v = .int i ∧ i < labels.length) ∨ ∃ s, v = .str s ∧ nonBlank s = true ∧ labels[i]? = some s

/-- The arguments are all integers or all non-blank strings. -/
def Homogeneous (l : List (PyVal K)) : Prop :=
  (∀ v ∈ l, ∃ z, v = .int z) ∨ ∀ v ∈ l, ∃ s, v = .str s ∧ nonBlank s = true

/-- A matrix written as a Python list of lists of floats. -/
def pyMatrix {m n : ℕ} (M : Matrix (Fin m) (Fin n) K) : PyVal K :=
  .list (List.ofFn fun i => .list (List.ofFn fun j => .float (.fin (M i j))))

/-- A matrix as a NumPy array of floats. -/
def pyArray {m n : ℕ} (M : Matrix (Fin m) (Fin n) K) : PyVal K :=
  .array (.mat (List.ofFn fun i => List.ofFn fun j => .fin (M i j)))

/-- A list of strings. -/
def pyStrings (l : List String) : PyVal K := .list (l.map .str)

/-- The argument is a number with the value `x`. As entries of arrays booleans count as numbers. -/
def Gives [Field K] (v : PyVal K) (x : K) : Prop :=
  v = .float (.fin x) ∨ (∃ z : ℤ, v = .int z ∧ x = z) ∨ ∃ b : Bool, v = .bool b ∧ x = if b then 1 else 0

/-- The argument is a boolean. -/
def IsBoolean (v : PyVal K) : Prop := ∃ b : Bool, v = .bool b

/-- The argument is the matrix `M`: an array of floats, or a list of lists of numbers that are not all
booleans. -/
def GivesMatrix [Field K] {m n : ℕ} (v : PyVal K) (M : Matrix (Fin m) (Fin n) K) : Prop :=
  v = pyArray M ∨ ∃ s : Fin m → Fin n → PyVal K,
    v = .list (List.ofFn fun i => .list (List.ofFn (s i))) ∧ (∀ i j, Gives (s i j) (M i j)) ∧
    ∃ i j, ¬ IsBoolean (s i j)

/-- The argument is the vector `x`: an array of floats with one dimension or one row, a list of numbers
that are not all booleans, or a list that contains one such list. -/
def GivesVector [Field K] {n : ℕ} (v : PyVal K) (x : Fin n → K) : Prop :=
  v = .array (.vec (List.ofFn fun i => .fin (x i))) ∨ v = .array (.mat [List.ofFn fun i => .fin (x i)]) ∨
  ∃ s : Fin n → PyVal K, (v = .list (List.ofFn s) ∨ v = .list [.list (List.ofFn s)]) ∧
    (∀ i, Gives (s i) (x i)) ∧ ∃ i, ¬ IsBoolean (s i)

/-- An entry of a mask as a float: NaN stands for an undefined probability. -/
def maskFloat : Option K → Flt K
  | some x => .fin x
  | none => .nan

/-- The argument is the mask: an array of floats, or a list of lists of numbers that are not all booleans,
with NaN for the undefined probabilities. -/
def GivesMask [Field K] {m n : ℕ} (v : PyVal K) (mask : Fin m → Fin n → Option K) : Prop :=
  v = .array (.mat (List.ofFn fun i => List.ofFn fun j => maskFloat (mask i j))) ∨
  ∃ s : Fin m → Fin n → PyVal K, v = .list (List.ofFn fun i => .list (List.ofFn (s i))) ∧
    (∀ i j, match mask i j with
      | some x => Gives (s i j) x
      | none => s i j = .float .nan) ∧
    ∃ i j, ¬ IsBoolean (s i j)

end Verif
