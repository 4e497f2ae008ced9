import Verif.Model.Measures

/-!
# Mean numbers of visits and sensitivity of the stationary distribution

Models `mc_mean_number_visits` and `mc_sensitivity` of `/repo/pydtmc/measures.py` and the methods of
`/repo/pydtmc/markov_chain.py` that call them. `numpy.linalg.lstsq` is a parameter with the contract
`Lstsq.Sound`.
-/

namespace Verif

variable {K : Type} [Field K] [LinearOrder K]

/-- `closed_states[i]` (`measures.py:386-403`): no positive entry leads from the class of `i` to a
state outside of it. -/
def closedState {n : ℕ} (P : Matrix (Fin n) (Fin n) K) (sccs : List (List (Fin n))) (i : Fin n) :
    Bool :=
  !((communicatingIdx sccs).any fun C => decide (i ∈ C) && leaves P C)

/-- The matrix `a` of the system for column `j` (`measures.py:409-425`). -/
def visitMatrix {n : ℕ} (P : Matrix (Fin n) (Fin n) K) (closed : Fin n → Bool) (j : Fin n) :
    Matrix (Fin n) (Fin n) K := fun i k =>
  if closed i then (if k = i then 1 else 0)
  else (if k = j then 0 else P i k) - if k = i then 1 else 0

/-- The right side `b` of the system for column `j` (`measures.py:410`, `:427-430`). -/
def visitRhs {n : ℕ} (P : Matrix (Fin n) (Fin n) K) (cm : Matrix (Fin n) (Fin n) ℕ)
    (closed : Fin n → Bool) (j i : Fin n) : K :=
  if closed i then (if cm i j = 1 then 1 else 0) else -P i j

/-- The columns of `hp` (`measures.py:405-432`). -/
noncomputable def visitColumns (c : MC K) (sccs : List (List (Fin c.n))) :
    R (List (Fin c.n → K)) :=
  (List.finRange c.n).mapM fun j => orRaise (npSolve (visitMatrix c.p (closedState c.p sccs) j)
    (visitRhs c.p (communicationMatrix c sccs) (closedState c.p sccs) j))

/-- The entries of `mnv` (`measures.py:436-452`); `inf false` is positive infinity. -/
def visitEntry {n : ℕ} (cols : List (Fin n → K)) (i j : Fin n) : Flt K :=
  let hp := fun i j : Fin n => cols.getD j.val (fun _ => 0) i
  if isclose (hp i j) 0 then .fin 0
  else if isclose (hp j j) 1 then .inf false
  else .fin (hp i j * (1 / (1 - hp j j)))

/-- `mean_number_visits` (`markov_chain.py:1585-1599`, `measures.py:381-454`). The cache of the
method is left out. -/
noncomputable def meanNumberVisits (c : MC K) (sccs : List (List (Fin c.n))) :
    R (Fin c.n → Fin c.n → Flt K) :=
  visitColumns c sccs >>= fun cols => pure (visitEntry cols)

/-- `numpy.linalg.lstsq(a, b)[0]` for a matrix with one column more than rows
(`measures.py:512`). -/
abbrev Lstsq (K : Type) (n : ℕ) := (Fin n → Fin (n + 1) → K) → (Fin n → K) → Fin (n + 1) → K

/-- The contract of `lstsq`: no other vector has a smaller sum of squared residuals. -/
def Lstsq.Sound {n : ℕ} (f : Lstsq K n) : Prop :=
  ∀ (a : Fin n → Fin (n + 1) → K) (b : Fin n → K) (x : Fin (n + 1) → K),
    ∑ i, (∑ k, a i k * f a b k - b i) ^ 2 ≤ ∑ i, (∑ k, a i k * x k - b i) ^ 2

/-- The matrix `a` (`measures.py:506-507`): `p - eye` with a column of ones appended. -/
def sensitivityMatrix {n : ℕ} (P : Matrix (Fin n) (Fin n) K) (i : Fin n) (k : Fin (n + 1)) : K :=
  if h : k.val < n then P i ⟨k.val, h⟩ - (if i.val = k.val then 1 else 0) else 1

/-- `mc_sensitivity` (`measures.py:496-517`). -/
def mcSensitivity (c : MC K) (sccs : List (List (Fin c.n))) (lstsq : Lstsq K c.n)
    (state : Fin c.n) : R (Option (Fin c.n → Fin c.n → K)) :=
  if isIrreducible c sccs = false then pure none
  else pi0 c sccs >>= fun x =>
    let phi := fun j : Fin c.n => lstsq (sensitivityMatrix c.p)
      (fun i => if i = state then 1 else 0) j.castSucc
    pure (some fun i j => -(x i * phi j) + (∑ k, phi k * x k) * (x i * 1))

/-- `sensitivity` (`markov_chain.py:1764-1786`). -/
def sensitivity (c : MC K) (sccs : List (List (Fin c.n))) (lstsq : Lstsq K c.n)
    (state : PyVal K) : R (Option (Fin c.n → Fin c.n → K)) :=
  validateLabel state c.states >>= fun s =>
  if h : s < c.n then mcSensitivity c sccs lstsq ⟨s, h⟩ else throw .valueError

end Verif
