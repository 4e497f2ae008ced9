import Verif.Model.Rounded

/-!
# The test of reversibility with rounding
-/

namespace Verif

variable {K : Type} [Field K] [LinearOrder K] [IsStrictOrderedRing K]

/-- `np.isclose(a, b)` with the default tolerances in rounded arithmetic; rounding is symmetric, so that the absolute
value can be taken first. -/
def iscloseF (fl : K → K) (a b : K) : Bool :=
  decide (fl |a - b| ≤ fl (fl (1 / 10 ^ 8) + fl (fl (1 / 10 ^ 5) * |b|)))

/-- `is_reversible` (`markov_chain.py:719-734`) with rounded products and comparisons. -/
def isReversibleF (fl : K → K) (c : MC K) (sccs : List (List (Fin c.n))) : R Bool :=
  piF (Arith.rounded fl) c sccs >>= fun l =>
  match l with
  | [x] => pure (decide (∀ i j, iscloseF fl (fl (x i * c.p i j)) (fl (x j * c.p j i)) = true))
  | _ => pure false

end Verif
