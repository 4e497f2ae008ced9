import Verif.Model.GraphIO
import Verif.Model.Random

/-!
# Generators of hidden Markov models

Models `HiddenMarkovModel.from_matrices` and `HiddenMarkovModel.random`
(`/repo/pydtmc/hidden_markov_model.py`, `/repo/pydtmc/generators.py`).
-/

namespace Verif

variable {K : Type} [Field K] [LinearOrder K]

/-- `validate_matrix` with a prescribed number of rows (`validation.py:670-693`): at least two
columns and finite nonnegative entries. -/
def validateMatrixRows (v : PyVal K) (size : ℕ) : R ((k : ℕ) × Matrix (Fin size) (Fin k) K) :=
  match extractNumeric v with
  | some (.mat rows) =>
    if rows.length ≠ size ∨ (rows.headD []).length < 2 ∨ ¬ hasWidth rows (rows.headD []).length then
      throw .valueError
    else if ¬ rows.all (fun r => r.all Flt.isFiniteNonneg) then throw .valueError
    else pure ⟨(rows.headD []).length, toMat rows size (rows.headD []).length⟩
  | some (.vec _) => throw .valueError
  | none => throw .typeError

/-- `HiddenMarkovModel.from_matrices` (`hidden_markov_model.py:867-914`). The two tests that no label
is both a state and a symbol (`:889-890`, `:164-165`) are the same. -/
def hmmFromMatrices (mp me states symbols : PyVal K) : R (HMM K) :=
  validateMatrix mp >>= fun P =>
  validateMatrixRows me P.1 >>= fun E =>
  labelsOrDefault states P.1 "P" >>= fun ls =>
  labelsOrDefault symbols E.1 "E" >>= fun lsy =>
  if ls.any (fun s => decide (s ∈ lsy)) then throw .valueError
  else pure ⟨P.1, E.1, normalizeRowsOrUniform P.2, normalizeRowsOrUniform E.2, ls, lsy⟩

/-! ## Random models -/

/-- A mask with any number of columns; `none` is NaN (an undefined probability). -/
abbrev GridMask (K : Type) (m n : ℕ) := Fin m → Fin n → Option K

/-- `np.nansum(mask, axis=1)` (`generators.py:139`). -/
def gridSum {m n : ℕ} (mask : GridMask K m n) (i : Fin m) : K := ∑ j, (mask i j).getD 0

/-- The content tests of `validate_mask` (`validation.py:661-665`). -/
def gridValid {m n : ℕ} (mask : GridMask K m n) : Prop :=
  (∀ i j x, mask i j = some x → 0 ≤ x ∧ x ≤ 1) ∧ ∀ i, gridSum mask i ≤ 1

/-- An entry of a mask: NaN is an undefined probability. -/
def Flt.entry : Flt K → Option K
  | .fin x => some x
  | _ => none

/-- `np.isnan(x) or (np.isfinite(x) and np.isreal(x) and 0.0 <= x <= 1.0)` (`validation.py:661`). -/
def Flt.isMaskEntry : Flt K → Bool
  | .nan => true
  | x => x.inUnit

/-- The array of an accepted mask. -/
def toMask (rows : List (List (Flt K))) (m n : ℕ) : GridMask K m n :=
  fun i j => ((rows.getD i []).getD j .nan).entry

/-- `validate_mask` (`validation.py:646-667`). -/
def validateMask (v : PyVal K) (rows columns : ℕ) : R (GridMask K rows columns) :=
  match extractNumeric v with
  | some (.mat l) =>
    if l.length ≠ rows ∨ ¬ hasWidth l columns then throw .valueError
    else if ¬ l.all (fun r => r.all Flt.isMaskEntry) then throw .valueError
    else if ∃ i, 1 < gridSum (toMask l rows columns) i then throw .valueError
    else pure (toMask l rows columns)
  | some (.vec _) => throw .valueError
  | none => throw .typeError

/-- `np.full((rows, columns), np.nan) if mask is None else validate_mask(mask, rows, columns)`
(`markov_chain.py:2677`, `hidden_markov_model.py:949`, `:955`). -/
def maskOrEmpty (v : PyVal K) (rows columns : ℕ) : R (GridMask K rows columns) :=
  match v with
  | .none => pure fun _ _ => none
  | v => validateMask v rows columns

/-- `full_rows` (`generators.py:139`). -/
def gridFull {m n : ℕ} (mask : GridMask K m n) (i : Fin m) : Bool := isclose (gridSum mask i) 1

/-- `np.flatnonzero(mask_unassigned[i, :])` (`generators.py:141-144`, `:104-105`): the undefined
entries of the row after those of the full rows were set to zero, which happens in a copy. -/
def gridFree {m n : ℕ} (mask : GridMask K m n) (i : Fin m) : List (Fin n) :=
  if gridFull mask i then [] else (List.finRange n).filter fun j => (mask i j).isNone

/-- `zeros_required` (`generators.py:144-145`). -/
def gridZerosRequired {m n : ℕ} (mask : GridMask K m n) : ℤ :=
  (((List.finRange m).map fun i => (gridFree mask i).length).sum : ℤ) -
    ((List.finRange m).filter fun i => ¬ gridFull mask i).length

/-- The random draws for one matrix: `pick i m` is `rng.randint(0, m)` for row `i`, `perm m` is
`rng.permutation(m)`, and `value i j` is the uniform draw for position `(i, j)` (the code fills the
positions in row order; a stream is an assignment of draws to positions). -/
structure GridDraws (K : Type) (m n : ℕ) where
  pick : Fin m → ℕ → ℕ
  perm : ℕ → List ℕ
  value : Fin m → Fin n → K

/-- The column that is marked in row `i` (`generators.py:102-107`). -/
def gridKept {m n : ℕ} (mask : GridMask K m n) (dr : GridDraws K m n) (i : Fin m) : Option (Fin n) :=
  if gridFull mask i then none
  else (gridFree mask i)[dr.pick i (gridFree mask i).length]?

/-- `indices_unassigned` (`generators.py:109-110`): these come from the mask as it was given, so the
undefined entries of full rows are among them. -/
def gridCandidates {m n : ℕ} (mask : GridMask K m n) (dr : GridDraws K m n) : List (Fin m × Fin n) :=
  (List.finRange m).flatMap fun i =>
    ((List.finRange n).filter fun j => (mask i j).isNone ∧ gridKept mask dr i ≠ some j).map
      fun j => (i, j)

/-- `indices_zero` (`generators.py:112-114`). -/
def gridZeros {m n : ℕ} (mask : GridMask K m n) (dr : GridDraws K m n) (zeros : ℕ) :
    List (Fin m × Fin n) :=
  ((dr.perm (gridZerosRequired mask).toNat).take zeros).filterMap fun k =>
    (gridCandidates mask dr)[k]?

/-- The mask after the zeros are placed and the marks removed (`generators.py:116-117`). -/
def gridFinal {m n : ℕ} (mask : GridMask K m n) (dr : GridDraws K m n) (zeros : ℕ) :
    GridMask K m n := fun i j =>
  if (i, j) ∈ gridZeros mask dr zeros then some 0 else mask i j

/-- Filling and rescaling (`generators.py:119-132`). -/
def gridMatrix {m n : ℕ} (mask : GridMask K m n) (dr : GridDraws K m n) (zeros : ℕ) :
    Matrix (Fin m) (Fin n) K :=
  fun i j =>
    let fm := gridFinal mask dr zeros
    let s := ∑ l, if fm i l = none then dr.value i l else 0
    let si := ∑ l, (fm i l).getD 0
    match fm i j with
    | some x => x
    | none => if 0 < s then dr.value i j * ((1 - si) / s) else dr.value i j

/-- A row that is neither full nor has an undefined entry makes `rng.randint(0, 0)` raise a
`ValueError` (`generators.py:106`). -/
def gridProcess {m n : ℕ} (mask : GridMask K m n) (dr : GridDraws K m n) (zeros : ℕ) :
    R (Matrix (Fin m) (Fin n) K) :=
  if ∃ i, ¬ gridFull mask i ∧ gridFree mask i = [] then throw .valueError
  else pure (gridMatrix mask dr zeros)

/-- `hmm_random` (`generators.py:94-166`) without the default labels; the exceptions for too many
null probabilities are `ValidationError`s, which the model does not tell apart. -/
def hmmRandom {n k : ℕ} (pMask : GridMask K n n) (eMask : GridMask K n k) (pd : GridDraws K n n)
    (ed : GridDraws K n k) (pZeros eZeros : ℕ) :
    R (Matrix (Fin n) (Fin n) K × Matrix (Fin n) (Fin k) K) :=
  if (pZeros : ℤ) > gridZerosRequired pMask then throw .valueError
  else if (eZeros : ℤ) > gridZerosRequired eMask then throw .valueError
  else
    gridProcess pMask pd pZeros >>= fun p =>
    gridProcess eMask ed eZeros >>= fun e =>
    pure (p, e)

/-- `HiddenMarkovModel.random` (`hidden_markov_model.py:918-973`) for masks that passed
`validate_mask`; a missing mask is the mask without assigned entries. The seed is not modelled. The
default labels of the code are those of `create_labels` (`generators.py:161`, `:164`). -/
def hmmRandomApi {n k : ℕ} (pMask : GridMask K n n) (eMask : GridMask K n k) (pd : GridDraws K n n)
    (ed : GridDraws K n k) (states pZeros symbols eZeros : PyVal K) : R (HMM K) :=
  validateInteger (.int n : PyVal K) (some (2, false)) none >>= fun _ =>
  validateInteger (.int k : PyVal K) (some (2, false)) none >>= fun _ =>
  labelsOrDefault states n "P" >>= fun ls =>
  validateInteger pZeros (some (0, false)) none >>= fun zp =>
  labelsOrDefault symbols k "E" >>= fun lsy =>
  validateInteger eZeros (some (0, false)) none >>= fun ze =>
  hmmRandom pMask eMask pd ed zp.toNat ze.toNat >>= fun M =>
  if ls.any (fun s => decide (s ∈ lsy)) then throw .valueError
  else pure ⟨n, k, M.1, M.2, ls, lsy⟩

/-! ## Random models from raw arguments -/

/-- `MarkovChain.random` (`markov_chain.py:2651-2692`) with all its arguments. The draws are those of the
generator for each size; the seed is not modelled. -/
def randomFull (dr : (n : ℕ) → Draws K n) (size states zeros mask : PyVal K) : R (MC K) :=
  validateInteger size (some (2, false)) none >>= fun n =>
  labelsOrDefault states n.toNat "" >>= fun labels =>
  validateInteger zeros (some (0, false)) none >>= fun z =>
  maskOrEmpty mask n.toNat n.toNat >>= fun m =>
  mcRandom m (dr n.toNat) z.toNat >>= fun p =>
  pure ⟨n.toNat, p, labels⟩

/-- `HiddenMarkovModel.random` (`hidden_markov_model.py:918-973`) with all its arguments but the seed. -/
def hmmRandomFull (pd ed : (n k : ℕ) → GridDraws K n k)
    (n k states pZeros pMask symbols eZeros eMask : PyVal K) : R (HMM K) :=
  validateInteger n (some (2, false)) none >>= fun n =>
  validateInteger k (some (2, false)) none >>= fun k =>
  labelsOrDefault states n.toNat "P" >>= fun ls =>
  validateInteger pZeros (some (0, false)) none >>= fun zp =>
  maskOrEmpty pMask n.toNat n.toNat >>= fun mp =>
  labelsOrDefault symbols k.toNat "E" >>= fun lsy =>
  validateInteger eZeros (some (0, false)) none >>= fun ze =>
  maskOrEmpty eMask n.toNat k.toNat >>= fun me =>
  hmmRandom mp me (pd n.toNat n.toNat) (ed n.toNat k.toNat) zp.toNat ze.toNat >>= fun M =>
  if ls.any (fun s => decide (s ∈ lsy)) then throw .valueError
  else pure ⟨n.toNat, k.toNat, M.1, M.2, ls, lsy⟩

end Verif
