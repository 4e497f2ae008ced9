import Verif.Model.Stationary
import Verif.Model.Periods
import Verif.Model.Validation2

/-!
# Measures of a chain

Models the functions of `/repo/pydtmc/measures.py` on Markov chains and the properties and methods
of `/repo/pydtmc/markov_chain.py` that call them. A result that may be `None` is an `Option`;
`LinAlgError` is reported as `valueError`. The caches of the methods without arguments are modelled
separately. Lists of labels that are turned back into indices with `states.index` are lists of
indices throughout, the labels of a chain are distinct.
-/

namespace Verif

variable {K : Type} [Field K] [LinearOrder K]

/-- The result of a NumPy routine that may raise `LinAlgError`. -/
def orRaise {α : Type} : Option α → R α
  | some a => pure a
  | none => throw .valueError

/-- `is_ergodic` (`markov_chain.py:678-686`). -/
def isErgodic (c : MC K) (nx : Nx c.n) : Bool := isIrreducible c nx.sccs && isAperiodic c nx

/-- `mc.pi[0]`. -/
def pi0 (c : MC K) (sccs : List (List (Fin c.n))) : R (Fin c.n → K) :=
  pi c sccs >>= fun l => orRaise l.head?

/-! ## Absorbing chains -/

/-- `fundamental_matrix` (`markov_chain.py:534-552`), indexed by positions in the list of transient
states. -/
noncomputable def fundamentalMatrix (c : MC K) (sccs : List (List (Fin c.n))) :
    R (Option (Matrix (Fin (transientStatesIdx c.p sccs).length)
      (Fin (transientStatesIdx c.p sccs).length) K)) :=
  if isAbsorbing c = false ∨ (transientStates c sccs).length = 0 then pure none
  else orRaise (npInv (1 - subMatrix c.p (transientStatesIdx c.p sccs))) >>= fun m => pure (some m)

/-- `mc_absorption_probabilities` (`measures.py:117-130`): rows for the absorbing states, columns
for the transient states. -/
noncomputable def absorptionProbabilities (c : MC K) (sccs : List (List (Fin c.n))) :
    R (Option (Fin (absorbingIdx c.p).length → Fin (transientStatesIdx c.p sccs).length → K)) :=
  if isAbsorbing c = false ∨ (transientStates c sccs).length = 0 then pure none
  else fundamentalMatrix c sccs >>= fun m =>
    orRaise m >>= fun m =>
    pure (some fun a i => ∑ k, m i k *
      c.p ((transientStatesIdx c.p sccs).get k) ((absorbingIdx c.p).get a))

/-- `mc_mean_absorption_times` (`measures.py:320-328`). -/
noncomputable def meanAbsorptionTimes (c : MC K) (sccs : List (List (Fin c.n))) :
    R (Option (Fin (transientStatesIdx c.p sccs).length → K)) :=
  if isAbsorbing c = false ∨ (transientStates c sccs).length = 0 then pure none
  else fundamentalMatrix c sccs >>= fun m =>
    orRaise m >>= fun m => pure (some (m.mulVec fun _ => 1))

/-- `kemeny_constant` (`markov_chain.py:773-789`); `fm[0].item()` for a matrix with one entry is its
trace. -/
noncomputable def kemenyConstant (c : MC K) (sccs : List (List (Fin c.n))) : R (Option K) :=
  fundamentalMatrix c sccs >>= fun m => pure (m.map Matrix.trace)

/-! ## Committors and passage times -/

/-- A system of equations in which the rows of some states are replaced by unit rows
(`measures.py:145-148`, `:370-371`). -/
def unitRows {n : ℕ} (A : Matrix (Fin n) (Fin n) K) (S : List (Fin n)) :
    Matrix (Fin n) (Fin n) K := fun i j => if i ∈ S then (if i = j then 1 else 0) else A i j

/-- The matrix of the committor equations before the rows are replaced (`measures.py:140-143`). -/
def committorMatrix {n : ℕ} (P : Matrix (Fin n) (Fin n) K) (x : Fin n → K) (backward : Bool) :
    Matrix (Fin n) (Fin n) K := fun i j =>
  if backward then x j * (P j i - if j = i then 1 else 0) else P i j - if i = j then 1 else 0

/-- The indicator of a list of states. -/
def oneOn {n : ℕ} (S : List (Fin n)) : Fin n → K := fun i => if i ∈ S then 1 else 0

/-- `mc_committor_probabilities` (`measures.py:133-160`). -/
noncomputable def mcCommittor (c : MC K) (nx : Nx c.n) (backward : Bool) (A B : List (Fin c.n)) :
    R (Option (Fin c.n → K)) :=
  if isErgodic c nx then
    pi0 c nx.sccs >>= fun x =>
    orRaise (npSolve (unitRows (unitRows (committorMatrix c.p x backward) A) B)
      (oneOn (if backward then A else B))) >>= fun q =>
    pure (some fun i => if isclose (q i) 0 then 0 else q i)
  else pure none

/-- `committor_probabilities` (`markov_chain.py:1138-1172`). -/
noncomputable def committorProbabilities (c : MC K) (nx : Nx c.n) (kind states1 states2 : PyVal K) :
    R (Option (Fin c.n → K)) :=
  validateEnumerator kind ["backward", "forward"] >>= fun kind =>
  validateLabelsCurrent states1 c.states true none >>= fun a =>
  validateLabelsCurrent states2 c.states true none >>= fun b =>
  if a.any (· ∈ b) then throw .valueError
  else mcCommittor c nx (kind == "backward") (toStates c.n a) (toStates c.n b)

/-- The matrix whose rows are all equal to `x` (`measures.py:357`). -/
def tile {n : ℕ} (x : Fin n → K) : Matrix (Fin n) (Fin n) K := fun _ j => x j

/-- `mc_mean_first_passage_times_to` without targets (`measures.py:355-365`). -/
noncomputable def mfptAll (c : MC K) (nx : Nx c.n) : R (Option (Fin c.n → Fin c.n → K)) :=
  if isErgodic c nx then
    pi0 c nx.sccs >>= fun x =>
    orRaise (npInv (1 - c.p + tile x)) >>= fun z =>
    pure (some fun i j => if i = j then 0 else ((1 : Matrix (Fin c.n) (Fin c.n) K) i j - z i j + z j j)
      * (1 / x j))
  else pure none

/-- `mc_mean_first_passage_times_to` with targets (`measures.py:369-376`). -/
noncomputable def mfptTo (c : MC K) (nx : Nx c.n) (S : List (Fin c.n)) :
    R (Option (Fin c.n → K)) :=
  if isErgodic c nx then
    orRaise (npSolve (unitRows (1 - c.p) S) fun i => if i ∈ S then 0 else 1) >>= fun t =>
    pure (some t)
  else pure none

/-- `mean_first_passage_times_to(targets)` (`markov_chain.py:1559-1583`) with targets. -/
noncomputable def meanFirstPassageTimesTo (c : MC K) (nx : Nx c.n) (targets : PyVal K) :
    R (Option (Fin c.n → K)) :=
  validateLabelsCurrent targets c.states false none >>= fun l => mfptTo c nx (toStates c.n l)

/-- `mc_mean_first_passage_times_between` (`measures.py:331-345`). -/
noncomputable def mfptBetween (c : MC K) (nx : Nx c.n) (origins targets : List (Fin c.n)) :
    R (Option K) :=
  if isErgodic c nx then
    pi0 c nx.sccs >>= fun x =>
    mfptTo c nx targets >>= fun t =>
    orRaise t >>= fun t =>
    pure (some ((origins.map fun i => x i / (origins.map x).sum * t i).sum))
  else pure none

/-- `mean_first_passage_times_between` (`markov_chain.py:1531-1556`). -/
noncomputable def meanFirstPassageTimesBetween (c : MC K) (nx : Nx c.n) (origins targets : PyVal K) :
    R (Option K) :=
  validateLabelsCurrent origins c.states true none >>= fun o =>
  validateLabelsCurrent targets c.states true none >>= fun t =>
  mfptBetween c nx (toStates c.n o) (toStates c.n t)

/-- `mc_mean_recurrence_times` (`measures.py:457-466`). -/
def meanRecurrenceTimes (c : MC K) (nx : Nx c.n) : R (Option (Fin c.n → K)) :=
  if isErgodic c nx then
    pi0 c nx.sccs >>= fun x => pure (some fun i => if isclose (x i) 0 then 0 else 1 / x i)
  else pure none

/-! ## Hitting probabilities and times -/

/-- `scipy.optimize.nnls` on square systems, a parameter. -/
def Nnls (K : Type) : Type := (m : ℕ) → Matrix (Fin m) (Fin m) K → (Fin m → K) → Fin m → K

/-- The states outside a list, in order: `setdiff1d(arange(size), target)`. -/
def complementIdx {n : ℕ} (S : List (Fin n)) : List (Fin n) :=
  (List.finRange n).filter fun i => decide (i ∉ S)

/-- A vector that holds `x` at the positions `idx` and `d` elsewhere. -/
def assignAt {n : ℕ} {α : Type} (idx : List (Fin n)) (x : Fin idx.length → α) (d : Fin n → α) :
    Fin n → α := fun i =>
  if h : i ∈ idx then x ⟨idx.idxOf i, List.idxOf_lt_length_iff.2 h⟩ else d i

/-- `mc_hitting_probabilities` (`measures.py:270-285`). -/
def mcHittingProbabilities {n : ℕ} (nnls : Nnls K) (P : Matrix (Fin n) (Fin n) K)
    (S : List (Fin n)) : Fin n → K :=
  let N := complementIdx S
  if 0 < N.length then
    assignAt N (nnls N.length (subMatrix P N - 1) fun a => (S.map fun j => -P (N.get a) j).sum)
      fun _ => 1
  else fun _ => 1

/-- One pass of the loop (`measures.py:302-303`). -/
def infinityPass {n : ℕ} (P : Matrix (Fin n) (Fin n) K) (S : List (Fin n)) (I : Finset (Fin n)) :
    Finset (Fin n) :=
  (I ∪ Finset.univ.filter fun i => ∑ j ∈ I, P i j ≠ 0) \ S.toFinset

/-- The loop (`measures.py:301-305`); `new` is the previous size. The size cannot grow more than
`n` times, so `n + 1` passes are enough. -/
def infinityLoop {n : ℕ} (P : Matrix (Fin n) (Fin n) K) (S : List (Fin n)) :
    ℕ → ℕ → Finset (Fin n) → Finset (Fin n)
  | 0, _, I => I
  | fuel + 1, new, I =>
    if I.card ≠ new then infinityLoop P S fuel I.card (infinityPass P S I) else I

/-- `mc_hitting_times` (`measures.py:288-317`); `none` is infinity. -/
def mcHittingTimes {n : ℕ} (nnls : Nnls K) (P : Matrix (Fin n) (Fin n) K) (S : List (Fin n)) :
    Fin n → Option K :=
  let hp := mcHittingProbabilities nnls P S
  let I := infinityLoop P S (n + 2) 0 (Finset.univ.filter fun i => isclose (hp i) 0 = true)
  let N := (List.finRange n).filter fun i => decide (i ∉ S ∧ i ∉ I)
  assignAt N (fun a => some (nnls N.length (subMatrix P N - 1) (fun _ => -1) a))
    fun i => if i ∈ I then none else some 0

/-- The targets of `hitting_probabilities` and `hitting_times` (`markov_chain.py:1341-1344`);
`none` stands for an omitted argument. -/
def hittingTargets (c : MC K) (targets : Option (PyVal K)) : R (List (Fin c.n)) :=
  match targets with
  | none => pure (List.finRange c.n)
  | some v => validateLabelsCurrent v c.states false none >>= fun l => pure (toStates c.n l)

/-- `hitting_probabilities` (`markov_chain.py:1326-1351`). -/
def hittingProbabilities (nnls : Nnls K) (c : MC K) (targets : Option (PyVal K)) :
    R (Fin c.n → K) :=
  hittingTargets c targets >>= fun S => pure (mcHittingProbabilities nnls c.p S)

/-- `hitting_times` (`markov_chain.py:1354-1379`). -/
def hittingTimes (nnls : Nnls K) (c : MC K) (targets : Option (PyVal K)) :
    R (Fin c.n → Option K) :=
  hittingTargets c targets >>= fun S => pure (mcHittingTimes nnls c.p S)

/-! ## Rewards, transitions and first passages over a fixed number of steps -/

/-- `mc_expected_rewards` (`measures.py:163-171`). -/
def mcExpectedRewards {n : ℕ} (P : Matrix (Fin n) (Fin n) K) (r : Fin n → K) : ℕ → Fin n → K
  | 0 => r
  | k + 1 => fun i => r i + ∑ j, P i j * mcExpectedRewards P r k j

/-- `expected_rewards` (`markov_chain.py:1200-1224`). -/
def expectedRewards (c : MC K) (steps rewards : PyVal K) : R (Fin c.n → K) :=
  validateInteger steps (some (0, true)) none >>= fun s =>
  validateRewards rewards c.n >>= fun r => pure (mcExpectedRewards c.p (listVec r c.n) s.toNat)

/-- The loop (`measures.py:178-183`). `idist` and `idist_sum` are names of the same array, and
`idist_sum += pi` changes it in place. -/
def idistSum {n : ℕ} (P : Matrix (Fin n) (Fin n) K) (d : Fin n → K) : ℕ → Fin n → K
  | 0 => d
  | k + 1 => fun j => idistSum P d k j + ∑ i, idistSum P d k i * P i j

/-- The result of `rdl_decomposition` (`computations.py:315-337`), a parameter: the entries of the
diagonal matrix and the two other matrices. NumPy may find complex eigenvalues, of which only the
real parts are kept; the entries here are the numbers that are kept. -/
structure Rdl (K : Type) (n : ℕ) where
  r : Matrix (Fin n) (Fin n) K
  q : Fin n → K
  l : Matrix (Fin n) (Fin n) K

/-- The sums of powers of the eigenvalues (`measures.py:191-196`). -/
def geometricSum (q : K) (steps : ℕ) : K := if q = 1 then steps else (1 - q ^ steps) / (1 - q)

/-- `mc_expected_transitions` (`measures.py:174-204`). -/
def mcExpectedTransitions {n : ℕ} (P : Matrix (Fin n) (Fin n) K) (rdl : Rdl K n) (steps : ℕ)
    (d : Fin n → K) : Fin n → Fin n → K :=
  if steps ≤ n then
    let s := idistSum P d (steps - 1)
    fun i j => s i * P i j
  else
    let s := Matrix.vecMul d (rdl.r * Matrix.diagonal (fun k => geometricSum (rdl.q k) steps) * rdl.l)
    fun i j => s i * P i j

/-- The optional initial distribution (`markov_chain.py:1244`, `:1669`). -/
def initialDistribution (n : ℕ) (d : Option (PyVal K)) : R (Fin n → K) :=
  match d with
  | none => pure fun _ => 1 / (n : K)
  | some v => validateVector v .stochastic false (some n) >>= fun l => pure (listVec l n)

/-- `expected_transitions` (`markov_chain.py:1227-1251`). -/
def expectedTransitions (c : MC K) (rdl : Rdl K c.n) (steps : PyVal K) (d : Option (PyVal K)) :
    R (Fin c.n → Fin c.n → K) :=
  validateInteger steps (some (0, true)) none >>= fun s =>
  initialDistribution c.n d >>= fun d => pure (mcExpectedTransitions c.p rdl s.toNat d)

/-- The matrix `g` after `t` passes of the loop (`measures.py:211-212`, `:220`). -/
def passageMatrix {n : ℕ} (P : Matrix (Fin n) (Fin n) K) : ℕ → Fin n → Fin n → K
  | 0 => fun i j => P i j
  | t + 1 => fun i j => ∑ k, P i k * (passageMatrix P t k j * if k = j then 0 else 1)

/-- `mc_first_passage_probabilities` without first passage states (`measures.py:214-221`): a list of
rows, one for each step. -/
def firstPassageAll (c : MC K) (steps initialState : PyVal K) : R (List (Fin c.n → K)) :=
  validateInteger steps (some (0, true)) none >>= fun s =>
  validateLabel initialState c.states >>= fun i =>
  if h : i < c.n then pure ((List.range s.toNat).map fun t => passageMatrix c.p t ⟨i, h⟩)
  else throw .valueError

/-- `first_passage_probabilities` with first passage states (`markov_chain.py:1254-1282`,
`measures.py:223-232`). -/
def firstPassageProbabilities (c : MC K) (steps initialState states : PyVal K) : R (List K) :=
  validateInteger steps (some (0, true)) none >>= fun s =>
  validateLabel initialState c.states >>= fun i =>
  validateLabelsCurrent states c.states false none >>= fun l =>
  if h : i < c.n then
    pure ((List.range s.toNat).map fun t =>
      ((toStates c.n l).map fun j => passageMatrix c.p t ⟨i, h⟩ j).sum)
  else throw .valueError

/-- The search for the position of the initial state among the other states
(`measures.py:245-256`): `k` and the states still to be visited. -/
def findOffset {n : ℕ} (S : List (Fin n)) (i : Fin n) : ℕ → List (Fin n) → ℕ
  | _, [] => 0
  | k, j :: t => if j ∈ S then findOffset S i k t else if j = i then k else findOffset S i (k + 1) t

/-- The powers `mt` of the loop (`measures.py:242`, `:265`). -/
def rewardPower {m : ℕ} (M : Matrix (Fin m) (Fin m) K) : ℕ → Matrix (Fin m) (Fin m) K
  | 0 => M
  | t + 1 => rewardPower M t * M

/-- `mc_first_passage_reward` (`measures.py:235-267`). `i[offset - 1]` with `offset = 0` is the last
entry. -/
def mcFirstPassageReward {n : ℕ} (P : Matrix (Fin n) (Fin n) K) (steps : ℕ) (i : Fin n)
    (S : List (Fin n)) (r : Fin n → K) : K :=
  let N := complementIdx S
  let M := subMatrix P N
  let offset := findOffset S i 1 (List.finRange n)
  let k := if offset = 0 then N.length - 1 else offset - 1
  ∑ t ∈ Finset.range steps, ∑ a : Fin N.length, (if a.val = k then 1 else 0) *
    ((rewardPower M t).mulVec fun b => r (N.get b)) a

/-- `first_passage_reward` (`markov_chain.py:1285-1323`). -/
def firstPassageReward (c : MC K) (steps initialState states rewards : PyVal K) : R K :=
  validateLabel initialState c.states >>= fun i =>
  validateLabelsCurrent states c.states true none >>= fun l =>
  validateRewards rewards c.n >>= fun r =>
  validateInteger steps (some (0, true)) none >>= fun s =>
  if c.n = 2 then throw .valueError
  else if i ∈ l then throw .valueError
  else if l.length = c.n - 1 then throw .valueError
  else if h : i < c.n then
    pure (mcFirstPassageReward c.p s.toNat ⟨i, h⟩ (toStates c.n l) (listVec r c.n))
  else throw .valueError

/-! ## Mixing time -/

/-- The loop (`measures.py:482-488`) with `fuel` iterations left; the result holds the number of
iterations left and `mt`. -/
def mixingLoop {n : ℕ} (P : Matrix (Fin n) (Fin n) K) (x : Fin n → K) (cutoff : K) (jump : ℤ) :
    ℕ → K → (Fin n → K) → ℤ → ℕ × ℤ
  | 0, _, _, mt => (0, mt)
  | fuel + 1, tvd, d, mt =>
    if tvd > cutoff then
      mixingLoop P x cutoff jump fuel (∑ i, |d i - x i|) (fun j => ∑ i, d i * P i j) (mt + jump)
    else (fuel + 1, mt)

/-- `mc_mixing_time` (`measures.py:469-493`). -/
def mcMixingTime (c : MC K) (nx : Nx c.n) (d : Fin c.n → K) (jump : ℤ) (cutoff : K) :
    R (Option ℤ) :=
  if isErgodic c nx then
    pi0 c nx.sccs >>= fun x =>
    let r := mixingLoop c.p x cutoff jump 100 1 (fun j => ∑ i, d i * c.p i j) 0
    pure (if r.1 = 0 then none else some r.2)
  else pure none

/-- `mixing_time` (`markov_chain.py:1649-1679`); the natural cutoff `1 / (2 e)` is a parameter. -/
def mixingTime (c : MC K) (nx : Nx c.n) (natural : K) (d : Option (PyVal K)) (jump kind : PyVal K) :
    R (Option ℤ) :=
  initialDistribution c.n d >>= fun d =>
  validateInteger jump (some (0, true)) none >>= fun jump =>
  validateEnumerator kind ["natural", "traditional"] >>= fun kind =>
  mcMixingTime c nx d jump (if kind = "traditional" then 1 / 4 else natural)

end Verif
