import Verif.Spec.Valid

/-!
# Specification vocabulary: saved objects

Only the record types of the model (`MC`, `HMM`) and the class of whitespace characters are shared.
-/

namespace Verif

variable {K : Type} [Field K] [LinearOrder K] [IsStrictOrderedRing K]

/-- The chains that the constructor accepts (see `C01_constructor_iff`): rows sum to one up to the
tolerance. -/
def MC.Accepted (c : MC K) : Prop :=
  2 ≤ c.n ∧ (∀ i j, 0 ≤ c.p i j ∧ c.p i j ≤ 1) ∧
    (∀ i, |∑ j, c.p i j - 1| ≤ 1 / 10 ^ 8 + 1 / 10 ^ 5) ∧ ValidLabels c.n c.states

/-- The hidden Markov models that the constructor accepts. -/
def HMM.Accepted (m : HMM K) : Prop :=
  2 ≤ m.n ∧ 2 ≤ m.k ∧ (∀ i j, 0 ≤ m.p i j ∧ m.p i j ≤ 1) ∧ (∀ i j, 0 ≤ m.e i j ∧ m.e i j ≤ 1) ∧
    (∀ i, |∑ j, m.p i j - 1| ≤ 1 / 10 ^ 8 + 1 / 10 ^ 5) ∧
    (∀ i, |∑ j, m.e i j - 1| ≤ 1 / 10 ^ 8 + 1 / 10 ^ 5) ∧
    ValidLabels m.n m.states ∧ ValidLabels m.k m.symbols ∧ List.Disjoint m.states m.symbols

/-- A string without whitespace. -/
def Solid (s : String) : Prop := ∀ ch ∈ s.toList, pyIsSpace ch = false

/-- A string that neither begins nor ends with whitespace. -/
def Trimmed (s : String) : Prop :=
  (∀ ch, s.toList.head? = some ch → pyIsSpace ch = false) ∧
    ∀ ch, s.toList.getLast? = some ch → pyIsSpace ch = false

/-- What is assumed of the conversion of a float: the string is not empty, contains no whitespace and
is converted back into the same float. -/
def Printed (fmt : K → String) (parse : String → Option K) (x : K) : Prop :=
  parse (fmt x) = some x ∧ fmt x ≠ "" ∧ Solid (fmt x)

end Verif
