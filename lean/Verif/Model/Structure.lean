import Verif.Model.Construct
import Mathlib.Data.BitVec
import Mathlib.Data.List.Sort
import Mathlib.Data.Matrix.Mul
import Mathlib.Data.List.FinRange
import Mathlib.Data.Fintype.Card
import Mathlib.Data.Fintype.BigOperators
import Mathlib.Data.Finset.SDiff
import Mathlib.Data.Finset.Union

/-!
# Structural properties of a chain

Models the properties of `MarkovChain` that depend on the transition graph
(`/repo/pydtmc/markov_chain.py`) and the helpers of `/repo/pydtmc/computations.py` they use.

`networkx.strongly_connected_components` is a parameter: `sccs` lists the components in the order
in which networkx yields them, every component in the iteration order of its `set`, with the labels
replaced by their indices. Nothing is assumed about these orders. The cached properties are
functions of the chain here; caching is modelled separately.
-/

namespace Verif

variable {K : Type} [Field K] [LinearOrder K]

/-! ## Classes -/

/-- `sorted(indices)` for a list of state indices. -/
def sortIdx {n : ℕ} (l : List (Fin n)) : List (Fin n) := l.insertionSort fun a b => a ≤ b

/-- First index of a class, `x[0]`. -/
def firstIdx {n : ℕ} (C : List (Fin n)) : ℕ := (C.head?.map Fin.val).getD 0

/-- Comparison with the sort key `(-len(x), x[0])` (`markov_chain.py:289`). -/
def classLe {n : ℕ} (a b : List (Fin n)) : Bool :=
  a.length > b.length || (a.length == b.length && firstIdx a ≤ firstIdx b)

/-- `sorted(..., key=lambda x: (-len(x), x[0]))` (`markov_chain.py:289`, `:331`, `:365`). -/
def sortClasses {n : ℕ} (l : List (List (Fin n))) : List (List (Fin n)) := 
  l.insertionSort fun a b => classLe a b = true

/-- `__classes_indices` (`markov_chain.py:280-284`). -/
def classesIdx {n : ℕ} (sccs : List (List (Fin n))) : List (List (Fin n)) := sccs.map sortIdx

/-- `__communicating_classes_indices` (`markov_chain.py:287-291`). -/
def communicatingIdx {n : ℕ} (sccs : List (List (Fin n))) : List (List (Fin n)) :=
  sortClasses (classesIdx sccs)

/-- Whether the graph has the edge from `i` to `j` (`utilities.py:112-130`). -/
def hasEdge {n : ℕ} (P : Matrix (Fin n) (Fin n) K) (i j : Fin n) : Bool := decide (0 < P i j)

/-- Whether the condensation has an edge that leaves component `C` (`markov_chain.py:362`): some
edge of the graph leads from a state of `C` to a state of another component. -/
def leaves {n : ℕ} (P : Matrix (Fin n) (Fin n) K) (C : List (Fin n)) : Bool :=
  decide (∃ i ∈ C, ∃ j, j ∉ C ∧ hasEdge P i j)

/-- `__transient_classes_indices` (`markov_chain.py:360-367`). `networkx.condensation` numbers the
components in the order of `strongly_connected_components`; the iteration order of the set `edges`
does not matter because the result is sorted with distinct keys. -/
def transientIdx {n : ℕ} (P : Matrix (Fin n) (Fin n) K) (sccs : List (List (Fin n))) :
    List (List (Fin n)) :=
  sortClasses ((classesIdx sccs).filter fun C => leaves P C)

/-- `__recurrent_classes_indices` (`markov_chain.py:328-333`). -/
def recurrentIdx {n : ℕ} (P : Matrix (Fin n) (Fin n) K) (sccs : List (List (Fin n))) :
    List (List (Fin n)) :=
  sortClasses ((classesIdx sccs).filter fun C => C ∉ transientIdx P sccs)

/-- `__recurrent_states_indices` (`markov_chain.py:336-340`). -/
def recurrentStatesIdx {n : ℕ} (P : Matrix (Fin n) (Fin n) K) (sccs : List (List (Fin n))) :
    List (Fin n) := sortIdx (recurrentIdx P sccs).flatten

/-- `__transient_states_indices` (`markov_chain.py:370-374`). -/
def transientStatesIdx {n : ℕ} (P : Matrix (Fin n) (Fin n) K) (sccs : List (List (Fin n))) :
    List (Fin n) := sortIdx (transientIdx P sccs).flatten

/-- `__absorbing_states_indices` (`markov_chain.py:273-277`). -/
def absorbingIdx {n : ℕ} (P : Matrix (Fin n) (Fin n) K) : List (Fin n) :=
  (List.finRange n).filter fun i => isclose (P i i) 1

/-- `self.__states.__getitem__`. -/
def MC.label (c : MC K) (i : Fin c.n) : String := c.states.getD i ""

/-- `communicating_classes` (`markov_chain.py:414-422`). -/
def communicatingClasses (c : MC K) (sccs : List (List (Fin c.n))) : List (List String) :=
  (communicatingIdx sccs).map fun C => C.map c.label

/-- `recurrent_classes` (`markov_chain.py:901-909`). -/
def recurrentClasses (c : MC K) (sccs : List (List (Fin c.n))) : List (List String) :=
  (recurrentIdx c.p sccs).map fun C => C.map c.label

/-- `transient_classes` (`markov_chain.py:983-991`). -/
def transientClasses (c : MC K) (sccs : List (List (Fin c.n))) : List (List String) :=
  (transientIdx c.p sccs).map fun C => C.map c.label

/-- `recurrent_states` (`markov_chain.py:912-920`). -/
def recurrentStates (c : MC K) (sccs : List (List (Fin c.n))) : List String :=
  (recurrentStatesIdx c.p sccs).map c.label

/-- `transient_states` (`markov_chain.py:994-1002`). -/
def transientStates (c : MC K) (sccs : List (List (Fin c.n))) : List String :=
  (transientStatesIdx c.p sccs).map c.label

/-- `absorbing_states` (`markov_chain.py:377-385`). -/
def absorbingStates (c : MC K) : List String := (absorbingIdx c.p).map c.label

/-- `communication_matrix` (`markov_chain.py:425-436`). -/
def communicationMatrix (c : MC K) (sccs : List (List (Fin c.n))) : Matrix (Fin c.n) (Fin c.n) ℕ :=
  fun i j => if ∃ C ∈ communicatingIdx sccs, i ∈ C ∧ j ∈ C then 1 else 0

/-- `is_irreducible` (`markov_chain.py:689-697`). -/
def isIrreducible (c : MC K) (sccs : List (List (Fin c.n))) : Bool :=
  (communicatingClasses c sccs).length == 1

/-- `is_recurrent_state` (`markov_chain.py:1443-1461`). -/
def isRecurrentState (c : MC K) (sccs : List (List (Fin c.n))) (state : PyVal K) : R Bool :=
  validateLabel state c.states >>= fun k =>
  pure (decide (k ∈ (recurrentStatesIdx c.p sccs).map Fin.val))

/-- `is_transient_state` (`markov_chain.py:1463-1481`). -/
def isTransientState (c : MC K) (sccs : List (List (Fin c.n))) (state : PyVal K) : R Bool :=
  validateLabel state c.states >>= fun k =>
  pure (decide (k ∈ (transientStatesIdx c.p sccs).map Fin.val))

/-- `is_absorbing_state` (`markov_chain.py:1381-1399`). -/
def isAbsorbingState (c : MC K) (state : PyVal K) : R Bool :=
  validateLabel state c.states >>= fun k => pure (decide (k ∈ (absorbingIdx c.p).map Fin.val))

/-- `is_canonical` (`markov_chain.py:650-664`). -/
def isCanonical (c : MC K) (sccs : List (List (Fin c.n))) : Bool :=
  let r := recurrentStatesIdx c.p sccs
  let t := transientStatesIdx c.p sccs
  if r.length = 0 ∨ t.length = 0 then true
  else decide (∀ i ∈ t, ∀ j ∈ r, i < j)

/-! ## Accessibility -/

/-- `adjacency_matrix` (`markov_chain.py:403-411`). The array has dtype `int`, a 64-bit machine
integer on the supported 64-bit platforms. -/
def adjacency {n : ℕ} (P : Matrix (Fin n) (Fin n) K) : Matrix (Fin n) (Fin n) (BitVec 64) :=
  fun i j => if 0 < P i j then 1 else 0

/-- `accessibility_matrix` (`markov_chain.py:388-400`): NumPy's `matrix_power` on machine integers
wraps around, and the comparison with zero is signed. The result (0 or 1) is a number here. -/
def accessibility {n : ℕ} (P : Matrix (Fin n) (Fin n) K) : Matrix (Fin n) (Fin n) ℕ :=
  fun i j => if 0 < (((1 + adjacency P) ^ (n - 1)) i j).toInt then 1 else 0

/-- `accessibility_matrix[k, l]` for indices of states. -/
def accessibilityAt (c : MC K) (k l : ℕ) : ℕ :=
  if h : k < c.n ∧ l < c.n then accessibility c.p ⟨k, h.1⟩ ⟨l, h.2⟩ else 0

/-- `is_accessible` (`markov_chain.py:1401-1421`). -/
def isAccessible (c : MC K) (target origin : PyVal K) : R Bool :=
  validateLabel target c.states >>= fun t =>
  validateLabel origin c.states >>= fun o =>
  pure (decide (accessibilityAt c o t ≠ 0))

/-- `are_communicating` (`markov_chain.py:1068-1090`). -/
def areCommunicating (c : MC K) (state1 state2 : PyVal K) : R Bool :=
  validateLabel state1 c.states >>= fun a =>
  validateLabel state2 c.states >>= fun b =>
  pure (decide (accessibilityAt c a b ≠ 0) && decide (accessibilityAt c b a ≠ 0))

/-! ## Absorbing chains -/

/-- One pass of the loop of `is_absorbing` (`markov_chain.py:617-627`): the new transient states. -/
def absorbingPass {n : ℕ} (P : Matrix (Fin n) (Fin n) K) (absorbing transient : Finset (Fin n)) :
    Finset (Fin n) :=
  (Finset.univ \ (absorbing ∪ transient)).filter fun i => ∃ j ∈ absorbing ∪ transient, hasEdge P i j

/-- The loop of `is_absorbing` (`markov_chain.py:615-629`); `fuel` bounds the passes, every pass
but the last one adds a state. -/
def absorbingLoop {n : ℕ} (P : Matrix (Fin n) (Fin n) K) (absorbing : Finset (Fin n)) :
    ℕ → Finset (Fin n) → Bool
  | 0, _ => false
  | fuel + 1, transient =>
    let new := absorbingPass P absorbing transient
    if new = ∅ then decide (Finset.univ \ (absorbing ∪ transient) = ∅)
    else absorbingLoop P absorbing fuel (transient ∪ new)

/-- `is_absorbing` (`markov_chain.py:598-631`). -/
def isAbsorbing (c : MC K) : Bool :=
  if (absorbingStates c).length = 0 then false
  else absorbingLoop c.p (absorbingIdx c.p).toFinset (c.n + 1) ∅

/-! ## Regular chains -/

/-- `is_regular` (`markov_chain.py:700-716`). -/
def isRegular (c : MC K) : Bool :=
  let nz := ((List.finRange c.n).filter fun i => c.p i i ≠ 0).length
  let k := if nz > 0 then 2 * c.n - nz - 1 else c.n ^ c.n - 2 * c.n + 2
  decide (∀ i j, hasEdge (c.p ^ k) i j)

end Verif
