import Verif.Model.Derived
import Mathlib.Order.Interval.Finset.Nat

/-!
# Stationary distributions and properties of the transition matrix

Models `gth_solve` (`/repo/pydtmc/computations.py`), `pi`, `is_reversible`,
`is_stochastically_monotone` and `is_symmetric` (`/repo/pydtmc/markov_chain.py`). Arrays of the
elimination are functions on natural numbers; slices `i:n` become sums over `Finset.Ico i n`.
-/

namespace Verif

variable {K : Type} [Field K] [LinearOrder K]

/-- One elimination step (`computations.py:284-285`): column `i` below the diagonal is scaled, then
the block behind it is updated. -/
def gthStep (n : ℕ) (a : ℕ → ℕ → K) (i : ℕ) (scale : K) : ℕ → ℕ → K := fun j k =>
  if i < j ∧ j < n then
    if k = i then a j i / scale
    else if i < k ∧ k < n then a j k + a j i / scale * a i k
    else a j k
  else a j k

/-- The elimination (`computations.py:276-285`): `m` steps are left, step `i` comes next. The result
holds the final value of the variable `n` and the matrix. -/
def gthForward (n : ℕ) : ℕ → ℕ → (ℕ → ℕ → K) → ℕ × (ℕ → ℕ → K)
  | 0, _, a => (n, a)
  | m + 1, i, a =>
    let scale := ∑ k ∈ Finset.Ico (i + 1) n, a i k
    if scale ≤ 0 then (i + 1, a) else gthForward n m (i + 1) (gthStep n a i scale)

/-- The substitution (`computations.py:290-291`), from position `m - 1` down to `0`. -/
def gthBack (n : ℕ) (a : ℕ → ℕ → K) : ℕ → (ℕ → K) → ℕ → K
  | 0, x => x
  | m + 1, x =>
    gthBack n a m (Function.update x m (∑ l ∈ Finset.Ico (m + 1) n, x l * a l m))

/-- `gth_solve` (`computations.py:271-295`): length of the result, and the result. -/
def gthSolve (n : ℕ) (a : ℕ → ℕ → K) : ℕ × (ℕ → K) :=
  let r := gthForward n (n - 1) 0 a
  let x := gthBack r.1 r.2 (r.1 - 1) fun k => if k = r.1 - 1 then 1 else 0
  (r.1, fun k => x k / ∑ l ∈ Finset.range r.1, x l)

/-- A matrix as an array. -/
def toArray {n : ℕ} (P : Matrix (Fin n) (Fin n) K) : ℕ → ℕ → K := fun i j =>
  if h : i < n ∧ j < n then P ⟨i, h.1⟩ ⟨j, h.2⟩ else 0

/-- The row of `s` that belongs to the class `C` (`markov_chain.py:882-883`). Assigning an array
with one entry spreads it over all positions, another wrong length is an error. -/
def piClass {n : ℕ} (P : Matrix (Fin n) (Fin n) K) (C : List (Fin n)) : R (Fin n → K) :=
  let r := gthSolve C.length (toArray (subMatrix P C))
  if r.1 = C.length then pure fun i => if i ∈ C then r.2 (C.idxOf i) else 0
  else if r.1 = 1 then pure fun i => if i ∈ C then r.2 0 else 0
  else throw .valueError

/-- `pi` (`markov_chain.py:868-887`); `reshape` fails if the length is not the number of states. -/
def pi (c : MC K) (sccs : List (List (Fin c.n))) : R (List (Fin c.n → K)) :=
  if isIrreducible c sccs then
    let r := gthSolve c.n (toArray c.p)
    if r.1 = c.n then pure [fun i => r.2 i] else throw .valueError
  else (recurrentIdx c.p sccs).mapM (piClass c.p)

/-- `is_reversible` (`markov_chain.py:719-734`). -/
def isReversible (c : MC K) (sccs : List (List (Fin c.n))) : R Bool :=
  pi c sccs >>= fun l =>
  match l with
  | [x] => pure (decide (∀ i j, isclose (x i * c.p i j) (x j * c.p j i) = true))
  | _ => pure false

/-- `is_symmetric` (`markov_chain.py:762-770`). -/
def isSymmetric (c : MC K) : Bool := decide (∀ i j, isclose (c.p i j) (c.p j i) = true)

/-- `is_stochastically_monotone` (`markov_chain.py:738-759`). -/
def isMonotone (c : MC K) : Bool :=
  decide (∀ m : Fin c.n, 1 ≤ m.val → ∀ k l : Fin c.n, k.val + 1 = l.val →
    ¬ ∑ j with m ≤ j, c.p l j < ∑ j with m ≤ j, c.p k j)

end Verif
