import Verif.Model.Serial

/-!
# Specification vocabulary: what a file says

The record types, the contents of files and the string functions of Python (`str.strip`, `str.split`,
the lines of a file) are shared with the model; the readers are not.
-/

namespace Verif

open Finset

variable {K : Type}

/-- The key has a value, and `v` is the last one given to it. -/
def LastValue (items : List (List String × K)) (k : List String) (v : K) : Prop :=
  ∃ before after, items = before ++ (k, v) :: after ∧ ∀ x ∈ after, x.1 ≠ k

/-- The names of the attributes that hold labels. -/
def labelNames : Bool → List String
  | true => ["state_from", "state_to"]
  | false => ["reference", "element_from", "element_to"]

/-- The labels of an item: two states, or a reference and two labels. -/
def ItemLabels (mc : Bool) (k : List String) : Prop :=
  k.length = (labelNames mc).length ∧ (mc = false → k.head? = some "E" ∨ k.head? = some "P")

/-- A line says that the item has the value: the labels and the value in this order and nothing else. -/
def LineSays (mc : Bool) (parse : String → Option K) (line : List Char) (x : List String × K) : Prop :=
  ItemLabels mc x.1 ∧ ∃ w, words line = x.1 ++ [w] ∧ parse w = some x.2

/-- The number that is meant. -/
def NumberIs [Field K] (w : PyVal K) (v : K) : Prop :=
  w = .float (.fin v) ∨ (∃ z : ℤ, w = .int z ∧ v = z) ∨ ∃ b : Bool, w = .bool b ∧ v = if b then 1 else 0

/-- An object says that the item has the value: it has an attribute for each label, which is a string
that is not empty, one for the value, and no other attributes. -/
def ObjectSays [Field K] (mc : Bool) (o : List (String × PyVal K)) (x : List String × K) : Prop :=
  ItemLabels mc x.1 ∧ o.length = (labelNames mc).length + 1 ∧
    List.Forall₂ (fun name label => label ≠ "" ∧ (name, .str label) ∈ o) (labelNames mc) x.1 ∧
    ∃ w, ("probability", w) ∈ o ∧ NumberIs w x.2

/-- The same for an element, whose attributes are strings; whitespace around them does not count. -/
def ElementSays (mc : Bool) (parse : String → Option K) (o : List (String × String))
    (x : List String × K) : Prop :=
  ItemLabels mc x.1 ∧ o.length = (labelNames mc).length + 1 ∧
    List.Forall₂ (fun name label => label ≠ "" ∧ ∃ s, (name, s) ∈ o ∧ label = pyStrip s)
      (labelNames mc) x.1 ∧
    ∃ s, ("probability", s) ∈ o ∧ pyStrip s ≠ "" ∧ parse (pyStrip s) = some x.2

/-- A file with one line, object or element per item says that the items have their values. -/
def FileSays [Field K] (mc : Bool) (parse : String → Option K) :
    FileData K → List (List String × K) → Prop
  | .txt l, items => l ≠ [] ∧ List.Forall₂ (LineSays mc parse) (fileLines l) items
  | .json data, items => List.Forall₂ (ObjectSays mc) data items
  | .xml data, items => List.Forall₂ (ElementSays mc parse) data items
  | .csv _, _ => False

/-- The table has a cell in this row and column, and its value is `v`. -/
def CellIs (parse : String → Option K) (rows : List (List String)) (i j : ℕ) (v : K) : Prop :=
  ∃ row cell, rows[i]? = some row ∧ row[j]? = some cell ∧ cell ≠ "" ∧ parse cell = some v

/-- A label of the header of a table that holds both matrices: `P_` or `E_` and a label; whitespace
around them does not count. -/
def HeaderSays (s : String) (x : String × String) : Prop :=
  3 ≤ s.toList.length ∧ (x.1 = "P" ∨ x.1 = "E") ∧ (pyStrip s).toList = x.1.toList ++ '_' :: x.2.toList

section
variable [Field K] [LinearOrder K]

/-- The items describe the chain: its states are the labels that occur in a pair with themselves, no
other labels occur, the transition probabilities are the last values given, or zero for pairs that do
not occur. -/
structure Describes (items : List (List String × K)) (c : MC K) : Prop where
  states : ∀ s, s ∈ c.states ↔ ∃ v, ([s, s], v) ∈ items
  known : ∀ x ∈ items, ∃ a ∈ c.states, ∃ b ∈ c.states, x.1 = [a, b]
  value : ∀ (i j : Fin c.n) v,
    LastValue items [c.states.getD i.val "", c.states.getD j.val ""] v → c.p i j = v
  missing : ∀ i j : Fin c.n,
    (∀ x ∈ items, x.1 ≠ [c.states.getD i.val "", c.states.getD j.val ""]) → c.p i j = 0

/-- The items describe the hidden Markov model. Its symbols are those of the first state. -/
structure DescribesModel (items : List (List String × K)) (m : HMM K) : Prop where
  states : ∀ s, s ∈ m.states ↔ ∃ v, (["P", s, s], v) ∈ items
  symbols : ∀ s, s ∈ m.symbols ↔ ∃ v, (["E", m.states.getD 0 "", s], v) ∈ items
  known : ∀ x ∈ items, ∃ a ∈ m.states,
    (∃ b ∈ m.states, x.1 = ["P", a, b]) ∨ ∃ b ∈ m.symbols, x.1 = ["E", a, b]
  transition : ∀ (i j : Fin m.n) v,
    LastValue items ["P", m.states.getD i.val "", m.states.getD j.val ""] v → m.p i j = v
  no_transition : ∀ i j : Fin m.n,
    (∀ x ∈ items, x.1 ≠ ["P", m.states.getD i.val "", m.states.getD j.val ""]) → m.p i j = 0
  emission : ∀ (i : Fin m.n) (j : Fin m.k) v,
    LastValue items ["E", m.states.getD i.val "", m.symbols.getD j.val ""] v → m.e i j = v
  no_emission : ∀ (i : Fin m.n) (j : Fin m.k),
    (∀ x ∈ items, x.1 ≠ ["E", m.states.getD i.val "", m.symbols.getD j.val ""]) → m.e i j = 0

/-- What is checked of a chain that is read from a file. -/
def MC.Checked (c : MC K) : Prop :=
  2 ≤ c.n ∧ c.states.length = c.n ∧ c.states.Nodup ∧
    ∀ i, |∑ j, c.p i j - 1| ≤ 1 / 10 ^ 8 + 1 / 10 ^ 5

/-- What is checked of a hidden Markov model that is read from a file. -/
def HMM.Checked (m : HMM K) : Prop :=
  2 ≤ m.n ∧ 2 ≤ m.k ∧ m.states.length = m.n ∧ m.states.Nodup ∧ m.symbols.length = m.k ∧
    m.symbols.Nodup ∧ List.Disjoint m.states m.symbols ∧
    (∀ i, |∑ j, m.p i j - 1| ≤ 1 / 10 ^ 8 + 1 / 10 ^ 5) ∧
    ∀ i, |∑ j, m.e i j - 1| ≤ 1 / 10 ^ 8 + 1 / 10 ^ 5

end

end Verif
