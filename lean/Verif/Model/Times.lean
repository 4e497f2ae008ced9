import Verif.Model.Measures

/-!
# Time correlations and time relaxations

Models `mc_time_correlations` and `mc_time_relaxations` of `/repo/pydtmc/measures.py`, the methods of
`/repo/pydtmc/markov_chain.py` that call them, and `validate_time_points` of
`/repo/pydtmc/validation.py`. The decomposition `rdl` is handed over as a computation that may raise,
because the methods evaluate it before anything else.
-/

namespace Verif

variable {K : Type} [Field K] [LinearOrder K]

/-- One value or a list of values: the argument `time_points` after validation, and the results. -/
inductive OneOrMany (α : Type)
  | one (a : α)
  | many (l : List α)

/-- `validate_time_points` (`validation.py:992-1027`). -/
def validateTimePoints (v : PyVal K) : R (OneOrMany ℕ) :=
  match v with
  | .int z => if z < 0 then throw .valueError else pure (.one z.toNat)
  | .list l =>
    if ¬ l.all PyVal.isInteger then throw .typeError
    else if (l.map PyVal.asInt).any (· < 0) then throw .valueError
    else if l.length < 1 then throw .valueError
    else if ¬ (l.map PyVal.asInt).Nodup then throw .valueError
    else pure (.many (((l.map PyVal.asInt).map Int.toNat).insertionSort (· ≤ ·)))
  | _ => throw .typeError

/-- The list of time points (`measures.py:543-549`, `:624-630`). -/
def OneOrMany.toList {α : Type} : OneOrMany α → List α
  | .one a => [a]
  | .many l => l

/-- The value that is returned (`measures.py:606-609`, `:682-685`). -/
def OneOrMany.wrap {α β : Type} : OneOrMany α → List β → Option (OneOrMany β)
  | .one _, b :: _ => some (.one b)
  | .one _, [] => none
  | .many _, l => some (.many l)

/-- The number of occurrences of each state (`measures.py:529-532`, `:619-622`). -/
def observations {n : ℕ} (seq : List ℕ) : Fin n → K :=
  seq.foldl (fun o s i => if i.val = s then o i + 1 else o i) fun _ => 0

/-- The observations of the second sequence (`measures.py:534-541`). -/
def secondObservations {n : ℕ} (seq1 : List ℕ) (seq2 : Option (List ℕ)) : Fin n → K :=
  match seq2 with
  | none => observations seq1
  | some s => observations s

/-- The vector at the first time point (`measures.py:590-600`, `:666-676`). -/
def firstPoint {α : Type} (step : α → α) (start : α) (t : ℕ) : α :=
  if t ≥ 2 then step^[t - 2] (step (step start)) else if t = 1 then step start else start

/-- The vectors at all time points, each computed from the previous one (`measures.py:571-602`,
`:649-678`). -/
def timeLoop {α : Type} (step : α → α) (start : α) : Option (ℕ × α) → List ℕ → List α
  | _, [] => []
  | none, t :: ts =>
    firstPoint step start t :: timeLoop step start (some (t, firstPoint step start t)) ts
  | some (prev, pk), t :: ts =>
    step^[t - prev] pk :: timeLoop step start (some (t, step^[t - prev] pk)) ts

/-- `p_times` (`measures.py:559-562`, `:640-643`). -/
def rdlPower {n : ℕ} (rdl : Rdl K n) (t : ℕ) : Matrix (Fin n) (Fin n) K :=
  rdl.r * Matrix.diagonal (fun k => rdl.q k ^ t) * rdl.l

/-- The correlations at the given time points (`measures.py:551-604`). -/
def correlationsAt {n : ℕ} (P : Matrix (Fin n) (Fin n) K) (rdl : Rdl K n) (x o1 o2 : Fin n → K)
    (ts : List ℕ) : List K :=
  if ts.getLastD 0 > n then
    ts.map fun t => ∑ i, (o1 i * x i) * (rdlPower rdl t).mulVec o2 i
  else (timeLoop (fun w => P.mulVec w) o2 none ts).map fun pk => ∑ i, (o1 i * x i) * pk i

/-- The relaxations at the given time points (`measures.py:632-680`). -/
def relaxationsAt {n : ℕ} (P : Matrix (Fin n) (Fin n) K) (rdl : Rdl K n) (d o : Fin n → K)
    (ts : List ℕ) : List K :=
  if ts.getLastD 0 > n then
    ts.map fun t => ∑ i, Matrix.vecMul d (rdlPower rdl t) i * o i
  else (timeLoop (fun w => Matrix.vecMul w P) d none ts).map fun pk => ∑ i, pk i * o i

/-- `mc_time_correlations` (`measures.py:520-609`). -/
def mcTimeCorrelations (c : MC K) (sccs : List (List (Fin c.n))) (rdl : Rdl K c.n) (seq1 : List ℕ)
    (seq2 : Option (List ℕ)) (tp : OneOrMany ℕ) : R (Option (OneOrMany K)) :=
  pi c sccs >>= fun l =>
  if l.length > 1 then pure none
  else orRaise l.head? >>= fun x =>
    pure (tp.wrap (correlationsAt c.p rdl x (observations seq1)
      (secondObservations seq1 seq2) tp.toList))

/-- `mc_time_relaxations` (`measures.py:612-685`). -/
def mcTimeRelaxations (c : MC K) (sccs : List (List (Fin c.n))) (rdl : Rdl K c.n) (seq : List ℕ)
    (d : Fin c.n → K) (tp : OneOrMany ℕ) : R (Option (OneOrMany K)) :=
  pi c sccs >>= fun l =>
  if l.length > 1 then pure none
  else pure (tp.wrap (relaxationsAt c.p rdl d (observations seq) tp.toList))

/-- The optional second sequence (`markov_chain.py:1862-1863`). -/
def optionalSequence (v : Option (PyVal K)) (labels : List String) : R (Option (List ℕ)) :=
  match v with
  | none => pure none
  | some v => validateSequence v labels >>= fun s => pure (some s)

/-- `time_correlations` (`markov_chain.py:1841-1872`). -/
def timeCorrelations (c : MC K) (sccs : List (List (Fin c.n))) (rdl : R (Rdl K c.n))
    (seq1 : PyVal K) (seq2 : Option (PyVal K)) (tp : PyVal K) : R (Option (OneOrMany K)) :=
  validateSequence seq1 c.states >>= fun s1 =>
  optionalSequence seq2 c.states >>= fun s2 =>
  validateTimePoints tp >>= fun tp =>
  rdl >>= fun rdl => mcTimeCorrelations c sccs rdl s1 s2 tp

/-- `time_relaxations` (`markov_chain.py:1875-1903`). -/
def timeRelaxations (c : MC K) (sccs : List (List (Fin c.n))) (rdl : R (Rdl K c.n))
    (seq : PyVal K) (d : Option (PyVal K)) (tp : PyVal K) : R (Option (OneOrMany K)) :=
  validateSequence seq c.states >>= fun s =>
  initialDistribution c.n d >>= fun d =>
  validateTimePoints tp >>= fun tp =>
  rdl >>= fun rdl => mcTimeRelaxations c sccs rdl s d tp

end Verif
