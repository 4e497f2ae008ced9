import Verif.Model.Measures
import Verif.Model.Validation2

/-!
# Model: aggregation of states

Models `mc_aggregate_spectral_bottom_up` and `mc_aggregate_spectral_top_down` of
`/repo/pydtmc/generators.py` and `aggregate` of `/repo/pydtmc/markov_chain.py`.

The columns of the matrices `phi` and `eta` contain zeros and ones; they are lists of groups of states
here. The eigenvector that splits a group (`generators.py:225-231`, `generators.py:330-336`) is a
parameter, as is the Kullback-Leibler divergence (see `Model/Divergence`), which is never `nan` because
of `nan_to_num` (`computations.py:303-307`) and of which only the order matters.
-/

namespace Verif

variable {K : Type} [Field K] [LinearOrder K] [IsStrictOrderedRing K]

/-- The result: a chain whose entries may be `nan`, because the constructor does not validate the
results of `aggregate` (`markov_chain.py:1064`). -/
structure FltMC (K : Type) where
  n : ℕ
  p : Fin n → Fin n → Flt K
  states : List String

/-- A group of states, a column of `phi`. -/
abbrev Group (n : ℕ) := Fin n → Bool

/-- An entry of `q_den` (`generators.py:203-205`). -/
def groupDen {n : ℕ} (x : Fin n → K) (a : Group n) : K := ∑ i, if a i = true then x i else 0

/-- An entry of `q_num` (`generators.py:200`). -/
def groupNum {n : ℕ} (P : Matrix (Fin n) (Fin n) K) (x : Fin n → K) (a b : Group n) : K :=
  ∑ i, ∑ j, if a i = true ∧ b j = true then x i * P i j else 0

/-- An entry of `q_num / q_den` (`generators.py:209`, `generators.py:316`). The numerator is zero if the
denominator is zero, and the quotient is then `nan`. -/
def groupEntry {n : ℕ} (P : Matrix (Fin n) (Fin n) K) (x : Fin n → K) (a b : Group n) : Flt K :=
  if groupDen x a = 0 then .nan else .fin (groupNum P x a b / groupDen x a)

/-- `_calculate_q` (`generators.py:195-211`, `generators.py:305-318`). -/
def calculateQ {n : ℕ} (P : Matrix (Fin n) (Fin n) K) (x : Fin n → K) (phi : List (Group n)) :
    Fin phi.length → Fin phi.length → Flt K := fun a b => groupEntry P x (phi.get a) (phi.get b)

/-- The division by the sum of a row (`generators.py:271`, `generators.py:378`): a row with an entry
`nan` has the sum `nan`. -/
def normalizeRow {z : ℕ} (row : Fin z → Flt K) : Fin z → Flt K :=
  if ∀ b, (row b).isFinite = true then
    if ∑ b, (row b).val = 0 then fun _ => .nan else fun b => .fin ((row b).val / ∑ b, (row b).val)
  else fun _ => .nan

/-- The labels `{prefix}1`, `{prefix}2`, … (`generators.py:273`, `generators.py:379`). -/
def aggregateLabels (pre : String) (z : ℕ) : List String :=
  (List.range z).map fun i => pre ++ toString (i + 1)

/-- The chain of the groups. -/
def groupChain {n : ℕ} (P : Matrix (Fin n) (Fin n) K) (x : Fin n → K) (pre : String)
    (phi : List (Group n)) : FltMC K :=
  ⟨phi.length, fun a => normalizeRow (calculateQ P x phi a), aggregateLabels pre phi.length⟩

/-! ## Bottom-up -/

/-- The number of members of a group. -/
def groupSize {n : ℕ} (v : Group n) : ℕ := ((List.finRange n).filter fun i => v i).length

/-- The two parts of a group (`generators.py:235-239`). -/
def nonnegPart {n : ℕ} (e : Fin n → K) (v : Group n) : Group n := fun i => v i && decide (0 ≤ e i)

/-- See `nonnegPart`. -/
def negPart {n : ℕ} (e : Fin n → K) (v : Group n) : Group n := fun i => v i && decide (e i < 0)

/-- `_create_bipartition_candidate` (`generators.py:214-243`); `vec` returns the eigenvector for a
group, with arbitrary values outside of the group. -/
def bipartition {n : ℕ} (vec : Group n → Fin n → K) (phi : List (Group n)) (i : ℕ) :
    Option (List (Group n)) :=
  match phi[i]? with
  | none => none
  | some v =>
    if groupSize v ≤ 1 then none
    else some (phi.take i ++ [nonnegPart (vec v) v, negPart (vec v) v] ++ phi.drop (i + 1))

/-- One pass of the loop over the groups (`generators.py:257-266`); the state is the best candidate
with its divergence, `none` if `r_k` is infinite. -/
def considerCandidate {n : ℕ} (divergence : List (Group n) → K)
    (best : Option (List (Group n) × K)) : Option (List (Group n)) → Option (List (Group n) × K)
  | none => best
  | some bc =>
    match best with
    | none => some (bc, divergence bc)
    | some b => if divergence bc < b.2 then some (bc, divergence bc) else some b

/-- The loop over the groups (`generators.py:253-266`). -/
def bestBipartition {n : ℕ} (vec : Group n → Fin n → K) (divergence : List (Group n) → K)
    (phi : List (Group n)) : Option (List (Group n) × K) :=
  (List.range phi.length).foldl
    (fun best i => considerCandidate divergence best (bipartition vec phi i)) none

/-- One iteration of the outer loop (`generators.py:251-269`). The state is `phi` after an assignment
of `q`, and `none` before. -/
def bottomUpStep {n : ℕ} (vec : Group n → Fin n → K) (divergence : List (Group n) → K)
    (cur : Option (List (Group n))) : Option (List (Group n)) :=
  match bestBipartition vec divergence (cur.getD [fun _ => true]) with
  | none => cur
  | some b => some b.1

/-- The outer loop (`generators.py:247-269`). -/
def bottomUpLoop {n : ℕ} (vec : Group n → Fin n → K) (divergence : List (Group n) → K) :
    ℕ → Option (List (Group n)) → Option (List (Group n))
  | 0, cur => cur
  | k + 1, cur => bottomUpLoop vec divergence k (bottomUpStep vec divergence cur)

/-- The result (`generators.py:271-275`); without an assignment, `q` is the uniform matrix of the
original size. -/
def bottomUpResult {n : ℕ} (P : Matrix (Fin n) (Fin n) K) (x : Fin n → K) :
    Option (List (Group n)) → FltMC K
  | none => ⟨n, fun _ => normalizeRow fun _ => .fin (1 / n), aggregateLabels "ASBU" n⟩
  | some phi => groupChain P x "ASBU" phi

/-- `mc_aggregate_spectral_bottom_up` (`generators.py:192-275`). -/
def aggregateBottomUp {n : ℕ} (vec : Group n → Fin n → K) (divergence : List (Group n) → K)
    (P : Matrix (Fin n) (Fin n) K) (x : Fin n → K) (s : ℕ) : FltMC K :=
  bottomUpResult P x (bottomUpLoop vec divergence (s - 1) none)

/-! ## Top-down -/

/-- The merged group (`generators.py:303`, the maximum of the columns). -/
def mergeGroups {n : ℕ} (a b : Group n) : Group n := fun i => a i || b i

/-- The columns `phi_i` of `_calculate_q` (`generators.py:301-303`) for a pair of positions. The slice
`(vi0 + 1):(vi1 - 1)` is written as in the source. -/
def mergePair {n : ℕ} (eta : List (Group n)) (vi0 vi1 : ℕ) : List (Group n) :=
  eta.take vi0 ++ [mergeGroups (eta.getD vi0 fun _ => false) (eta.getD vi1 fun _ => false)] ++
    (eta.take (vi1 - 1)).drop (vi0 + 1) ++ eta.drop (vi1 + 1)

/-- `_update_bipartition_candidates` (`generators.py:321-355`); the columns are increasing lists of
positions, and `vec` returns the eigenvector for a column. -/
def updateCandidates (vec : List ℕ → ℕ → K) (phi : List (List ℕ)) : List (List ℕ) :=
  let v := phi.getLast?.getD []
  let v1 := v.filter fun i => decide (0 ≤ vec v i)
  let v2 := v.filter fun i => decide (vec v i < 0)
  phi.dropLast ++ (if v1.length > 1 then [v1] else []) ++ (if v2.length > 1 then [v2] else [])

/-- The loop that splits the columns (`generators.py:366-367`), with a bound on the number of
iterations. -/
def splitLoop (vec : List ℕ → ℕ → K) : ℕ → List (List ℕ) → Option (List (List ℕ))
  | 0, phi => if ∀ v ∈ phi, v.length ≤ 2 then some phi else none
  | k + 1, phi =>
    if ∀ v ∈ phi, v.length ≤ 2 then some phi else splitLoop vec k (updateCandidates vec phi)

/-- The candidate with the smallest divergence, the last one of several (`generators.py:376`). -/
def lastBest {n : ℕ} (divergence : List (Group n) → K) : List (List (Group n)) →
    Option (List (Group n))
  | [] => none
  | a :: l =>
    match lastBest divergence l with
    | none => some a
    | some b => if divergence a < divergence b then some a else some b

/-- The candidates and the selection (`generators.py:369-376`). No candidates, or a column with a single
member: `IndexError`, reported as `valueError`. -/
def selectMerge {n : ℕ} (divergence : List (Group n) → K) (eta : List (Group n))
    (phi : List (List ℕ)) : R (List (Group n)) :=
  if ∃ v ∈ phi, v.length < 2 then throw .valueError
  else orRaise (lastBest divergence (phi.map fun v => mergePair eta (v.getD 0 0) (v.getD 1 0)))

/-- One iteration (`generators.py:363-376`). -/
def topDownStep {n : ℕ} (vec : List (Group n) → List ℕ → ℕ → K)
    (divergence : List (Group n) → K) (fuel : ℕ) (eta : List (Group n)) :
    Option (R (List (Group n))) :=
  (splitLoop (vec eta) fuel [List.range eta.length]).map (selectMerge divergence eta)

/-- The loop over the merges (`generators.py:361-376`). -/
def topDownLoop {n : ℕ} (vec : List (Group n) → List ℕ → ℕ → K)
    (divergence : List (Group n) → K) (fuel : ℕ) : ℕ → List (Group n) →
    Option (R (List (Group n)))
  | 0, eta => some (.ok eta)
  | k + 1, eta =>
    match topDownStep vec divergence fuel eta with
    | none => none
    | some (.error e) => some (.error e)
    | some (.ok eta') => topDownLoop vec divergence fuel k eta'

/-- The columns of the identity matrix (`generators.py:359`). -/
def singletons (n : ℕ) : List (Group n) := (List.finRange n).map fun i j => decide (i = j)

/-- `mc_aggregate_spectral_top_down` (`generators.py:278-381`); `none` if a loop needs more iterations
than `fuel`. -/
def aggregateTopDown {n : ℕ} (vec : List (Group n) → List ℕ → ℕ → K)
    (divergence : List (Group n) → K) (fuel : ℕ) (P : Matrix (Fin n) (Fin n) K) (x : Fin n → K)
    (s : ℕ) : Option (R (FltMC K)) :=
  (topDownLoop vec divergence fuel (n - s) (singletons n)).map fun r =>
    r >>= fun eta => pure (groupChain P x "ASTD" eta)

/-! ## The method -/

/-- The selection of the algorithm (`markov_chain.py:1052-1058`); `true` for bottom-up. -/
def useBottomUp (n : ℕ) (s : ℤ) (method : String) : Bool :=
  if method = "adaptive" then
    if n < 30 then false else decide ((s : ℚ) / n ≤ 3 / 10)
  else decide (method = "spectral-bottom-up")

/-- `aggregate` (`markov_chain.py:1020-1066`). -/
def aggregate (c : MC K) (nx : Nx c.n) (vecUp : Group c.n → Fin c.n → K)
    (vecDown : List (Group c.n) → List ℕ → ℕ → K) (divergence : List (Group c.n) → K) (fuel : ℕ)
    (s method : PyVal K) : R (Option (R (FltMC K))) :=
  validateEnumerator method ["adaptive", "spectral-bottom-up", "spectral-top-down"] >>= fun m =>
  validateInteger s (some (2, false)) (some ((c.n : ℤ) - 1, false)) >>= fun s =>
  if c.n = 2 then throw .valueError
  else if isErgodic c nx = false then throw .valueError
  else pi0 c nx.sccs >>= fun x =>
    pure (if useBottomUp c.n s m = true
      then some (.ok (aggregateBottomUp vecUp divergence c.p x s.toNat))
      else aggregateTopDown vecDown divergence fuel c.p x s.toNat)

end Verif
