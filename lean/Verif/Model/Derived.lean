import Verif.Model.Structure
import Verif.Model.Linalg
import Mathlib.Data.Nat.Bitwise

/-!
# Chains derived from a chain

Models `mc_canonical`, `mc_sub`, `mc_lump` (`/repo/pydtmc/generators.py`),
`find_lumping_partitions` (`/repo/pydtmc/computations.py`) and the methods of `MarkovChain` that
call them. The callers are instance generators, so the constructor does not validate the result.
-/

namespace Verif

variable {K : Type} [Field K] [LinearOrder K]

/-- `p[np.ix_(indices, indices)]`. -/
def subMatrix {n : ℕ} (P : Matrix (Fin n) (Fin n) K) (idx : List (Fin n)) :
    Matrix (Fin idx.length) (Fin idx.length) K := fun i j => P (idx.get i) (idx.get j)

/-- The chain restricted to (or rearranged along) a list of states. -/
def subChain (c : MC K) (idx : List (Fin c.n)) : MC K :=
  ⟨idx.length, subMatrix c.p idx, idx.map c.label⟩

/-! ## Canonical form -/

/-- `to_canonical_form` (`markov_chain.py:1934-1948`) with `mc_canonical`
(`generators.py:604-621`). `max(t) < min(r)` on non-empty lists is written out. -/
def toCanonicalForm (c : MC K) (sccs : List (List (Fin c.n))) : MC K :=
  let r := recurrentStatesIdx c.p sccs
  let t := transientStatesIdx c.p sccs
  let states := (t ++ r).map c.label
  if r.length = 0 ∨ t.length = 0 then ⟨c.n, c.p, states⟩
  else if ∀ i ∈ t, ∀ j ∈ r, i < j then ⟨c.n, c.p, states⟩
  else ⟨(t ++ r).length, subMatrix c.p (t ++ r), states⟩

/-! ## Subchains -/

/-- One pass of the outer loop of the transitive closure (`generators.py:990-996`). The inner loops
run over `j` and `x`; the entries they read in row `i` and column `i` do not change during the
pass, so all entries can be updated at once. -/
def warshallPass {n : ℕ} (C : Fin n → Fin n → Bool) (i : Fin n) : Fin n → Fin n → Bool :=
  fun j x => C j x || (C j i && C i x)

/-- The transitive closure (`generators.py:988-996`). -/
def warshall {n : ℕ} (A : Fin n → Fin n → Bool) : Fin n → Fin n → Bool :=
  (List.finRange n).foldl warshallPass A

/-- The loop that appends to the list it iterates over (`generators.py:998-1002`): `done` has been
visited, `todo` is the rest of the list; `fuel` bounds the number of visits. -/
def growLoop {n : ℕ} (closure : Fin n → Fin n → Bool) :
    ℕ → List (Fin n) → List (Fin n) → List (Fin n)
  | 0, done, todo => done ++ todo
  | fuel + 1, done, todo =>
    match todo with
    | [] => done
    | s :: todo =>
      let new := (List.finRange n).filter fun x => closure s x && decide (x ∉ done ++ s :: todo)
      growLoop closure fuel (done ++ [s]) (todo ++ new)

/-- Indices that are in range, as states. -/
def toStates (n : ℕ) (l : List ℕ) : List (Fin n) :=
  l.filterMap fun k => if h : k < n then some ⟨k, h⟩ else none

/-- `mc_sub` (`generators.py:984-1015`); every row of the submatrix is divided by its sum. -/
def mcSub (c : MC K) (sub : List (Fin c.n)) : R (MC K) :=
  let closure := warshall fun i j => hasEdge c.p i j
  let idx := sortIdx (growLoop closure (c.n + 1) [] sub)
  let p := subMatrix c.p idx
  let q : Matrix (Fin idx.length) (Fin idx.length) K := fun i j => p i j / ∑ l, p i l
  if idx.length * idx.length = 1 then throw .valueError
  else pure ⟨idx.length, q, idx.map c.label⟩

/-- `to_subchain` (`markov_chain.py:2064-2092`). -/
def toSubchain (c : MC K) (states : PyVal K) : R (MC K) :=
  validateLabelsCurrent states c.states true none >>= fun l => mcSub c (toStates c.n l)

/-! ## Lumping -/

/-- The indicator matrix of a partition (`generators.py:861-865`, `computations.py:248-252`). -/
def indicator {n : ℕ} (g : List (List (Fin n))) : Matrix (Fin n) (Fin g.length) K :=
  fun i a => if i ∈ g.get a then 1 else 0

open Classical in
/-- The test for lumpability (`generators.py:867-876`, `computations.py:254-263`): the matrix `k`
if the chain is lumpable, nothing otherwise. -/
noncomputable def lumpingMatrix {n : ℕ} (P : Matrix (Fin n) (Fin n) K) (g : List (List (Fin n))) :
    Option (Matrix (Fin g.length) (Fin n) K) :=
  let r : Matrix (Fin n) (Fin g.length) K := indicator g
  match npInv (r.transpose * r) with
  | none => none
  | some inv =>
    let k := inv * r.transpose
    if r * k * P * r = P * r then some k else none

/-- `mc_lump` (`generators.py:857-884`). -/
noncomputable def mcLump (c : MC K) (g : List (List (Fin c.n))) : R (MC K) :=
  match lumpingMatrix c.p g with
  | none => throw .valueError
  | some k => pure ⟨g.length, k * c.p * (indicator g : Matrix (Fin c.n) (Fin g.length) K),
      g.map fun C => ",".intercalate (C.map c.label)⟩

/-- `lump` (`markov_chain.py:1484-1511`). -/
noncomputable def lump (c : MC K) (partitions : PyVal K) : R (MC K) :=
  validatePartitions partitions c.states >>= fun g =>
    if c.n = 2 then throw .valueError else mcLump c (g.map (toStates c.n))

/-- The partition that belongs to number `i` (`computations.py:228-237`): a group ends at the
positions of the one bits of `i` and at the last position. -/
def cutAt {n : ℕ} (i : ℕ) : List (Fin n) → List (Fin n) → List (List (Fin n))
  | [], _ => []
  | x :: xs, subset =>
    if i.testBit x || decide (x.val = n - 1) then (subset ++ [x]) :: cutAt i xs []
    else cutAt i xs (subset ++ [x])

/-- `possible_partitions` (`computations.py:221-242`). -/
def possiblePartitions (n : ℕ) : List (List (List (Fin n))) :=
  ((List.range (2 ^ (n - 1))).map fun i => cutAt i (List.finRange n) []).filter fun g =>
    decide (2 ≤ g.length) && decide (g.length < n)

open Classical in
/-- `find_lumping_partitions` (`computations.py:214-268`), `lumping_partitions`
(`markov_chain.py:791-800`). -/
noncomputable def lumpingPartitions (c : MC K) : List (List (List (Fin c.n))) :=
  if c.n = 2 then []
  else (possiblePartitions c.n).filter fun g => (lumpingMatrix c.p g).isSome

end Verif
