import Verif.Model.Stationary
import Verif.Model.Generators

/-!
# The closest reversible chain

Models `mc_closest_reversible` (`/repo/pydtmc/generators.py`) and `MarkovChain.closest_reversible`
(`/repo/pydtmc/markov_chain.py`).
-/

namespace Verif

open Finset

variable {K : Type} [Field K] [LinearOrder K]

/-- The pairs `r < s` in the order of the two loops (`generators.py:648-654`). -/
def indexPairs (n : ℕ) : List (Fin n × Fin n) :=
  (List.finRange n).flatMap fun r => ((List.finRange n).filter fun s => r < s).map fun s => (r, s)

/-- The identity matrix with the entries `(r, r)`, `(r, s)`, `(s, s)`, `(s, r)` replaced. -/
def eyeWith {n : ℕ} (r s : Fin n) (rr rs ss sr : K) : Matrix (Fin n) (Fin n) K := fun i j =>
  if i = r ∧ j = r then rr else if i = r ∧ j = s then rs
  else if i = s ∧ j = s then ss else if i = s ∧ j = r then sr
  else if i = j then 1 else 0

/-- `np.eye(size)`. -/
def eyeMatrix (K : Type) [Field K] (n : ℕ) : Matrix (Fin n) (Fin n) K := fun i j => if i = j then 1 else 0

/-- The basis vectors of a pair (`generators.py:650-681`). -/
def pairVectors {n : ℕ} (d : Fin n → K) (q : Fin n × Fin n) : List (Matrix (Fin n) (Fin n) K) :=
  if d q.1 = 0 ∧ d q.2 = 0 then [eyeWith q.1 q.2 0 1 1 0, eyeWith q.1 q.2 1 0 0 1]
  else [eyeWith q.1 q.2 (1 - d q.2) (d q.2) (1 - d q.1) (d q.1)]

/-- `basis_vectors` (`generators.py:646-683`). -/
def basisVectors {n : ℕ} (d : Fin n → K) : List (Matrix (Fin n) (Fin n) K) :=
  (indexPairs n).flatMap (pairVectors d) ++ [eyeMatrix K n]

/-- `m` (`generators.py:638-643`). The divisions are exact. -/
def basisCount {n : ℕ} (d : Fin n → K) : ℕ :=
  let zeros := (univ.filter fun i => d i = 0).card
  (n - 1) * n / 2 + (zeros - 1) * zeros / 2 + 1

/-- `basis_vectors[k]`. -/
def basisVector {n : ℕ} (d : Fin n → K) (k : Fin (basisCount d)) : Matrix (Fin n) (Fin n) K :=
  (basisVectors d).getD k 0

/-- The weights of the squares: those of the weighted Frobenius norm come from
`multi_dot([d, bv_i, di])` with the diagonal matrix `d` and its inverse (`generators.py:690-696`). -/
def normWeight {n : ℕ} (d : Fin n → K) (weighted : Bool) (i j : Fin n) : K :=
  if weighted then d i / d j else 1

/-- `h` (`generators.py:685-719`): twice the trace of `z.T @ bv_j`, where `z` is `bv_i` or its weighted
version. The entry `(i, j)` is written twice; the later assignment, of the pass with the larger first
index, counts. -/
def quadraticTerm {n : ℕ} (d : Fin n → K) (weighted : Bool) (k l : Fin (basisCount d)) : K :=
  2 * ∑ i, ∑ j, normWeight d weighted i j * basisVector d (max k l) i j * basisVector d (min k l) i j

/-- `f` (`generators.py:686-712`). -/
def linearTerm {n : ℕ} (p : Matrix (Fin n) (Fin n) K) (d : Fin n → K) (weighted : Bool)
    (k : Fin (basisCount d)) : K :=
  -2 * ∑ i, ∑ j, normWeight d weighted i j * basisVector d k i j * p i j

/-- `_objective` (`generators.py:632-636`). -/
def objective {m : ℕ} (h : Fin m → Fin m → K) (f x : Fin m → K) : K :=
  1 / 2 * ∑ k, ∑ l, x k * h k l * x l + ∑ k, f k * x k

/-- `_jacobian` (`generators.py:626-630`). -/
def jacobian {m : ℕ} (h : Fin m → Fin m → K) (f x : Fin m → K) (l : Fin m) : K :=
  ∑ k, x k * h k l + f l

/-- The entries of the row `m + i - 1` of `a` for a pair (`generators.py:730-763`). -/
def pairConstraints {n : ℕ} (d : Fin n → K) (i : Fin n) (q : Fin n × Fin n) : List K :=
  if d q.1 = 0 ∧ d q.2 = 0 then [if q.1 = i then 0 else -1, if q.2 = i then 0 else -1]
  else [if q.2 = i then -1 + d q.1 else if q.1 = i then -1 + d q.2 else -1]

/-- The row `m + i - 1` of `a` (`generators.py:725-765`). -/
def constraintRow {n : ℕ} (d : Fin n → K) (i : Fin n) : List K :=
  (indexPairs n).flatMap (pairConstraints d i) ++ [-1]

/-- `a` (`generators.py:721-765`): the rows below `m - 1` have `-1` on the diagonal, the others are those
of the second loop. -/
def constraintMatrix {n : ℕ} (d : Fin n → K) (u : Fin (basisCount d + (n - 1)))
    (k : Fin (basisCount d)) : K :=
  if u.val < basisCount d - 1 then (if u.val = k.val then -1 else 0)
  else if h : u.val - (basisCount d - 1) < n then (constraintRow d ⟨_, h⟩).getD k 0 else 0

/-- `scipy.optimize.minimize` with the objective, its gradient, the equation and the inequalities
(`generators.py:770-776`); `none` is a solution that is not a success. -/
abbrev Minimizer (K : Type) := (m q : ℕ) → (objective : (Fin m → K) → K) →
  (jacobian : (Fin m → K) → Fin m → K) → (equation : (Fin m → K) → K) →
  (inequalities : (Fin m → K) → Fin q → K) → Option (Fin m → K)

/-- The combination of the basis vectors (`generators.py:781-785`). -/
def combination {n : ℕ} (d : Fin n → K) (x : Fin (basisCount d) → K) : Matrix (Fin n) (Fin n) K :=
  fun i j => ∑ k, x k * basisVector d k i j

/-- The solution of the optimisation problem (`generators.py:767-776`). -/
def closestSolution (minimize : Minimizer K) {n : ℕ} (p : Matrix (Fin n) (Fin n) K) (d : Fin n → K)
    (weighted : Bool) : Option (Fin (basisCount d) → K) :=
  minimize _ _ (objective (quadraticTerm d weighted) (linearTerm p d weighted))
    (jacobian (quadraticTerm d weighted) (linearTerm p d weighted))
    (fun x => ∑ k, x k - 1) (fun x u => 0 - ∑ k, constraintMatrix d u k * x k)

/-- `mc_closest_reversible` (`generators.py:624-792`) without the names of the states, which are not
used. -/
def mcClosestReversible (minimize : Minimizer K) {n : ℕ} (p : Matrix (Fin n) (Fin n) K) (d : Fin n → K)
    (weighted : Bool) : R (Matrix (Fin n) (Fin n) K) :=
  match closestSolution minimize p d weighted with
  | some x => pure (normalizeRows (fillNullRows (combination d x)))
  | none => throw .valueError

/-- The given distribution, or the uniform one (`markov_chain.py:1110`). -/
def distributionOrUniform (v : PyVal K) (n : ℕ) : R (Fin n → K) :=
  match v with
  | .none => pure fun _ => 1 / (n : K)
  | v => validateVector v .stochastic false (some n) >>= fun l => pure (listVec l n)

/-- The matrix of the result (`markov_chain.py:1121-1128`). -/
def closestMatrix (minimize : Minimizer K) (scc : (c : MC K) → List (List (Fin c.n))) (c : MC K)
    (d : Fin c.n → K) (weighted : Bool) : R (Matrix (Fin c.n) (Fin c.n) K) :=
  isReversible c (scc c) >>= fun b => if b then pure c.p else mcClosestReversible minimize c.p d weighted

/-- The last test (`markov_chain.py:1130-1135`). -/
def checkedReversible (scc : (c : MC K) → List (List (Fin c.n))) (c : MC K) : R (MC K) :=
  isReversible c (scc c) >>= fun b => if b then pure c else throw .valueError

/-- `MarkovChain.closest_reversible` (`markov_chain.py:1093-1135`). `scc` are the strongly connected
components that `networkx` finds. -/
def closestReversible (minimize : Minimizer K) (scc : (c : MC K) → List (List (Fin c.n))) (c : MC K)
    (distribution weighted : PyVal K) : R (MC K) :=
  distributionOrUniform distribution c.n >>= fun d =>
  validateBoolean weighted >>= fun w =>
  if w = true ∧ ∃ i, d i = 0 then throw .valueError
  else
    closestMatrix minimize scc c d w >>= fun Q =>
    checkedReversible scc ⟨c.n, Q, c.states⟩

end Verif
