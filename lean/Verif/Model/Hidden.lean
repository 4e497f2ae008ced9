import Verif.Model.Simulation
import Verif.Model.Fitting
import Mathlib.Order.WithBot

/-!
# Hidden Markov models

Models the functions on hidden Markov models in `/repo/pydtmc/measures.py`, `simulations.py`,
`generators.py` and `fitting.py`, and the methods of `/repo/pydtmc/hidden_markov_model.py` that call
them. Two-dimensional arrays with one column per time step are lists of columns.
-/

namespace Verif

variable {K : Type} [Field K] [LinearOrder K] {n k : ℕ}

/-- The optional initial status (`hidden_markov_model.py:309`, `:403`). -/
def initialStatus (status : PyVal K) (labels : List String) (n : ℕ) : R (Fin n → K) :=
  (match status with
    | .none => pure (List.replicate n (1 / (n : K)))
    | v => validateStatus v labels) >>= fun l => pure (listVec l n)

/-! ## Decoding -/

/-- One column of the forward recursion before it is scaled (`measures.py:76-77`). -/
def forwardStep (P : Matrix (Fin n) (Fin n) K) (E : Matrix (Fin n) (Fin k) K) (f : Fin n → K)
    (y : Fin k) : Fin n → K := fun s => E s y * ∑ i, f i * P i s

/-- The forward loop (`measures.py:71-85`): the scaled columns and the scaling factors. -/
def forwardLoop (P : Matrix (Fin n) (Fin n) K) (E : Matrix (Fin n) (Fin k) K) :
    (Fin n → K) → List (Fin k) → Option (List ((Fin n → K) × K))
  | _, [] => some []
  | f, y :: ys =>
    let a := forwardStep P E f y
    let c := ∑ s, a s
    if c < 1 / 10 ^ 300 then none
    else (forwardLoop P E (fun s => a s / c) ys).map ((fun s => a s / c, c) :: ·)

/-- One column of the backward recursion (`measures.py:91-97`). -/
def backwardStep (P : Matrix (Fin n) (Fin n) K) (E : Matrix (Fin n) (Fin k) K) (y : Fin k) (c : K)
    (b : Fin n → K) : Fin n → K := fun s => 1 / c * ∑ j, P s j * b j * E j y

/-- The backward loop (`measures.py:87-97`), given the symbols with their scaling factors. -/
def backwardLoop (P : Matrix (Fin n) (Fin n) K) (E : Matrix (Fin n) (Fin k) K) :
    List (Fin k × K) → List (Fin n → K)
  | [] => [fun _ => 1]
  | (y, c) :: t =>
    let r := backwardLoop P E t
    backwardStep P E y c (r.headD fun _ => 1) :: r

/-- The arrays computed by `hmm_decode`; `factors` includes the leading `1`. -/
structure Decoding (K : Type) (n : ℕ) where
  posterior : List (Fin n → K)
  backward : List (Fin n → K)
  forward : List (Fin n → K)
  factors : List K

/-- `hmm_decode` with scaling, without the logarithm (`measures.py:58-100`). -/
def decodeScaled (P : Matrix (Fin n) (Fin n) K) (E : Matrix (Fin n) (Fin k) K) (init : Fin n → K)
    (symbols : List (Fin k)) : Option (Decoding K n) :=
  (forwardLoop P E init symbols).map fun fw =>
    let forward := init :: fw.map Prod.fst
    let backward := backwardLoop P E (symbols.zip (fw.map Prod.snd))
    { posterior := (List.zipWith (fun b f s => b s * f s) backward forward).tail
      backward := backward
      forward := forward
      factors := 1 :: fw.map Prod.snd }

/-- `np.cumprod`. -/
def cumprodFrom : K → List K → List K
  | _, [] => []
  | a, x :: t => a * x :: cumprodFrom (a * x) t

/-- The conversion to unscaled columns (`measures.py:104-110`). -/
def unscale (d : Decoding K n) : Decoding K n :=
  let backwardScale := (1 :: cumprodFrom 1 d.factors.tail.reverse).reverse
  let forwardScale := cumprodFrom 1 d.factors
  { d with
    backward := List.zipWith (fun b c s => b s * c) d.backward backwardScale
    forward := List.zipWith (fun f c s => f s * c) d.forward forwardScale }

/-- `hmm_decode` (`measures.py:58-114`): the logarithm of the probability and the arrays; the
scaling factors are not part of the unscaled result. -/
noncomputable def hmmDecode (P : Matrix (Fin n) (Fin n) ℝ) (E : Matrix (Fin n) (Fin k) ℝ)
    (init : Fin n → ℝ) (symbols : List (Fin k)) (useScaling : Bool) :
    Option (ℝ × Decoding ℝ n) :=
  (decodeScaled P E init symbols).map fun d =>
    ((d.factors.map Real.log).sum, if useScaling then d else unscale d)

/-- `HiddenMarkovModel.decode` (`hidden_markov_model.py:291-317`). -/
noncomputable def HMM.decode (m : HMM ℝ) (symbols status useScaling : PyVal ℝ) :
    R (Option (ℝ × Decoding ℝ m.n)) :=
  validateSequence symbols m.symbols >>= fun ys =>
  initialStatus status m.states m.n >>= fun init =>
  validateBoolean useScaling >>= fun b =>
  pure (hmmDecode m.p m.e init (toStates m.k ys) b)

/-! ## Prediction -/

/-- `np.argmax` of a row: the first index of a maximal entry. -/
noncomputable def firstMax {α : Type} [LinearOrder α] (d : Fin n → α) : Option (Fin n) :=
  (List.finRange n).find? fun j => decide (∀ i, d i ≤ d j)

/-- `_predict_map` (`simulations.py:47-57`). -/
noncomputable def predictMap (P : Matrix (Fin n) (Fin n) ℝ) (E : Matrix (Fin n) (Fin k) ℝ)
    (init : Fin n → ℝ) (symbols : List (Fin k)) : Option (ℝ × List (Fin n)) :=
  (hmmDecode P E init symbols true).map fun r => (r.1, r.2.posterior.filterMap firstMax)

/-- `np.log` of a nonnegative number; `⊥` is `-inf`. -/
noncomputable def logBot (x : ℝ) : WithBot ℝ := if 0 < x then (Real.log x : ℝ) else ⊥

/-- The column of candidate values for state `j` (`simulations.py:81`); `rnd` is `np.round` with 12
decimals, which leaves `-inf` as it is. -/
noncomputable def viterbiCandidates (rnd : ℝ → ℝ) (P : Matrix (Fin n) (Fin n) ℝ)
    (omega : Fin n → WithBot ℝ) (j : Fin n) : Fin n → WithBot ℝ :=
  fun i => (omega i + logBot (P i j)).map rnd

/-- One row of `omega` and one row of `path` (`simulations.py:79-85`). -/
noncomputable def viterbiStep (rnd : ℝ → ℝ) (P : Matrix (Fin n) (Fin n) ℝ)
    (E : Matrix (Fin n) (Fin k) ℝ) (omega : Fin n → WithBot ℝ) (y : Fin k) :
    (Fin n → WithBot ℝ) × (Fin n → Fin n) :=
  (fun j =>
    let q := viterbiCandidates rnd P omega j
    q ((firstMax q).getD j) + logBot (E j y),
  fun j => (firstMax (viterbiCandidates rnd P omega j)).getD j)

/-- The loop over the symbols (`simulations.py:74-88`): the last row of `omega` and all rows of
`path`. -/
noncomputable def viterbiLoop (rnd : ℝ → ℝ) (P : Matrix (Fin n) (Fin n) ℝ)
    (E : Matrix (Fin n) (Fin k) ℝ) :
    (Fin n → WithBot ℝ) → List (Fin k) → Option ((Fin n → WithBot ℝ) × List (Fin n → Fin n))
  | omega, [] => some (omega, [])
  | omega, y :: ys =>
    let r := viterbiStep rnd P E omega y
    if ∀ j, r.1 j = ⊥ then none
    else (viterbiLoop rnd P E r.1 ys).map fun q => (q.1, r.2 :: q.2)

/-- Following the path backwards from the last state (`simulations.py:93-96`). -/
def backtrack : List (Fin n → Fin n) → Fin n → List (Fin n)
  | [], last => [last]
  | f :: fs, last =>
    let r := backtrack fs last
    f (r.headD last) :: r

/-- `_predict_viterbi` (`simulations.py:59-98`). The first row of `path` is not followed. -/
noncomputable def predictViterbi (rnd : ℝ → ℝ) (P : Matrix (Fin n) (Fin n) ℝ)
    (E : Matrix (Fin n) (Fin k) ℝ) (init : Fin n → ℝ) (symbols : List (Fin k)) :
    Option (WithBot ℝ × List (Fin n)) :=
  match symbols with
  | [] => none
  | y :: ys =>
    let omega := fun j => logBot (init j * E j y)
    if ∀ j, omega j = ⊥ then none
    else (viterbiLoop rnd P E omega (y :: ys)).bind fun q =>
      (firstMax q.1).map fun last => (q.1 last, backtrack q.2.tail last)

/-- `hmm_predict` (`simulations.py:45-105`). -/
noncomputable def hmmPredict (rnd : ℝ → ℝ) (type : String) (P : Matrix (Fin n) (Fin n) ℝ)
    (E : Matrix (Fin n) (Fin k) ℝ) (init : Fin n → ℝ) (symbols : List (Fin k)) :
    Option (WithBot ℝ × List (Fin n)) :=
  if type = "map" then (predictMap P E init symbols).map fun r => ((r.1 : WithBot ℝ), r.2)
  else predictViterbi rnd P E init symbols

/-- `HiddenMarkovModel.predict` with `output_indices=True` (`hidden_markov_model.py:380-413`). -/
noncomputable def HMM.predict (m : HMM ℝ) (rnd : ℝ → ℝ) (type symbols status : PyVal ℝ) :
    R (Option (WithBot ℝ × List (Fin m.n))) :=
  validateEnumerator type ["map", "mle", "viterbi"] >>= fun t =>
  validateSequence symbols m.symbols >>= fun ys =>
  initialStatus status m.states m.n >>= fun init =>
  pure (hmmPredict rnd t m.p m.e init (toStates m.k ys))

/-! ## Simulation -/

/-- A row of `pc` or `ec` (`simulations.py:120-121`, `:124-125`): cumulative sums divided by the
last one. -/
def cumulative (w : Fin n → K) (j : ℕ) : K := (∑ i : Fin n with i.val ≤ j, w i) / ∑ i, w i

/-- The loop `for j in range(n - 2, -1, -1)` (`simulations.py:132-135`, `:140-143`); `m` is the number
of indices still to be tried. -/
def pickLoop (w : Fin n → K) (u : K) : ℕ → ℕ
  | 0 => 0
  | m + 1 => if cumulative w m < u then m + 1 else pickLoop w u m

theorem pickLoop_le (w : Fin n → K) (u : K) (m : ℕ) : pickLoop w u m ≤ m := by
  induction m with
  | zero => exact le_rfl
  | succ m ih =>
    unfold pickLoop
    split
    · exact le_rfl
    · omega

/-- The index selected by the draw `u` (`simulations.py:129-135`). -/
def pick (w : Fin n → K) (u : K) (h : 0 < n) : Fin n :=
  ⟨pickLoop w u (n - 1), by have := pickLoop_le w u (n - 1); omega⟩

/-- The loop of `hmm_simulate` (`simulations.py:127-150`): the pairs appended after state `s`. -/
def hmmSimulateLoop (P : Matrix (Fin n) (Fin n) K) (E : Matrix (Fin n) (Fin k) K) (hn : 0 < n)
    (hk : 0 < k) (pr er : ℕ → K) (finalState : Option (Fin n)) (finalSymbol : Option (Fin k)) :
    ℕ → ℕ → Fin n → List (Fin n × Fin k)
  | 0, _, _ => []
  | m + 1, t, s =>
    let s' := pick (P s) (pr t) hn
    let y := pick (E s') (er t) hk
    if finalState = some s' ∨ finalSymbol = some y then [(s', y)]
    else (s', y) :: hmmSimulateLoop P E hn hk pr er finalState finalSymbol m (t + 1) s'

/-- `hmm_simulate` (`simulations.py:109-152`); `choice` is the result of `rng.choice` for the first
symbol, `pr` and `er` are the draws of `rng.random`. The two lists are returned as a list of pairs.
-/
def hmmSimulate (P : Matrix (Fin n) (Fin n) K) (E : Matrix (Fin n) (Fin k) K) (hn : 0 < n)
    (hk : 0 < k) (choice : Choice K k) (pr er : ℕ → K) (steps : ℕ) (s : Fin n)
    (finalState : Option (Fin n)) (finalSymbol : Option (Fin k)) : List (Fin n × Fin k) :=
  (s, choice 0 (E s)) :: hmmSimulateLoop P E hn hk pr er finalState finalSymbol steps 0 s

/-- `HiddenMarkovModel.simulate` with `output_indices=True` (`hidden_markov_model.py:448-481`). -/
def HMM.simulate (m : HMM K) (hn : 0 < m.n) (hk : 0 < m.k) (choice : Choice K m.k) (pr er : ℕ → K)
    (start : Fin m.n) (steps initialState finalState finalSymbol : PyVal K) :
    R (List (Fin m.n × Fin m.k)) :=
  validateInteger steps (some (2, false)) none >>= fun s =>
  optionalLabel initialState m.states m.n >>= fun i =>
  optionalLabel finalState m.states m.n >>= fun f =>
  optionalLabel finalSymbol m.symbols m.k >>= fun g =>
  pure (hmmSimulate m.p m.e hn hk choice pr er s.toNat (i.getD start) f g)

/-- `HiddenMarkovModel.next` with `target='both'` and `output_index=True`
(`hidden_markov_model.py:342-378`). -/
def HMM.next (m : HMM K) (hn : 0 < m.n) (hk : 0 < m.k) (choice : Choice K m.k) (pr er : ℕ → K)
    (initialState : PyVal K) : R (Option (Fin m.n × Fin m.k)) :=
  validateLabel initialState m.states >>= fun i =>
  asState m.n i >>= fun i =>
  pure (hmmSimulate m.p m.e hn hk choice pr er 1 i none none).getLast?

/-! ## Restriction and estimation -/

/-- Rows and columns of a matrix (`np.ix_`, `generators.py:177`, `:182`). -/
def pickMatrix (M : Matrix (Fin n) (Fin k) K) (rows : List (Fin n)) (cols : List (Fin k)) :
    Matrix (Fin rows.length) (Fin cols.length) K := fun i j => M (rows.get i) (cols.get j)

/-- `hmm_restrict` (`generators.py:169-189`). A matrix that is not decreased is kept as it is. When
the states are not decreased but the symbols are, the rows of `e` are still selected with
`sub_states`, which is then the list of all states. -/
def hmmRestrict (m : HMM K) (states : List (Fin m.n)) (symbols : List (Fin m.k)) : HMM K :=
  let pDecrease := states.length < m.n
  let eDecrease := pDecrease ∨ symbols.length < m.n
  let names := states.map fun i : Fin m.n => m.states.getD i ""
  let symbolNames := symbols.map fun j : Fin m.k => m.symbols.getD j ""
  if pDecrease then
    ⟨states.length, symbols.length, normalizeRows (fillNullRows (pickMatrix m.p states states)),
      normalizeRows (fillNullRows (pickMatrix m.e states symbols)), names, symbolNames⟩
  else if eDecrease then
    ⟨m.n, symbols.length, m.p,
      normalizeRows (fillNullRows fun i j => m.e i (symbols.get j)), names, symbolNames⟩
  else ⟨m.n, m.k, m.p, m.e, names, symbolNames⟩

/-- `v is None`. -/
def isNone : PyVal K → Bool
  | .none => true
  | _ => false

/-- The states or symbols to keep (`hidden_markov_model.py:436-437`). -/
def labelsOrAll (v : PyVal K) (labels : List String) (size : ℕ) : R (List ℕ) :=
  match v with
  | .none => pure (List.range size)
  | v => validateLabelsCurrent v labels true (some 2)

/-- `HiddenMarkovModel.restrict` (`hidden_markov_model.py:416-445`). The constructor does not
validate its arguments when it is called from this method; it only compares the names. -/
def HMM.restrict (m : HMM K) (states symbols : PyVal K) : R (HMM K) :=
  if isNone states = true ∧ isNone symbols = true then throw .valueError
  else
    labelsOrAll states m.states m.n >>= fun ss =>
    labelsOrAll symbols m.symbols m.k >>= fun ys =>
    let r := hmmRestrict m (toStates m.n ss) (toStates m.k ys)
    if r.states.any fun s => s ∈ r.symbols then throw .valueError else pure r

/-- `e[i, j] += 1.0` (`generators.py:70-71`). -/
def addEmission (M : Matrix (Fin n) (Fin k) ℕ) (x : ℕ × ℕ) : Matrix (Fin n) (Fin k) ℕ :=
  fun i j => if (i : ℕ) = x.1 ∧ (j : ℕ) = x.2 then M i j + 1 else M i j

/-- The counts of the emissions (`generators.py:70-71`). -/
def emissionMatrix (n k : ℕ) (states symbols : List ℕ) : Matrix (Fin n) (Fin k) ℕ :=
  (states.zip symbols).foldl addEmission fun _ _ => 0

/-- Division of the rows by their sums, where null rows stay null (`generators.py:83-89`). -/
def normalizeOrNull (M : Matrix (Fin n) (Fin k) K) : Matrix (Fin n) (Fin k) K :=
  fun i j => if ∑ l, M i l = 0 then 0 else |M i j / ∑ l, M i l|

/-- `hmm_estimate` (`generators.py:63-91`). -/
def hmmEstimate (n k : ℕ) (states symbols : List ℕ) (handleNulls : Bool) :
    Matrix (Fin n) (Fin n) K × Matrix (Fin n) (Fin k) K :=
  let p : Matrix (Fin n) (Fin n) K := fun i j => (countMatrix n states i j : K)
  let e : Matrix (Fin n) (Fin k) K := fun i j => (emissionMatrix n k states symbols i j : K)
  if handleNulls then (normalizeRows (fillNullRows p), normalizeRows (fillNullRows e))
  else (normalizeOrNull p, normalizeOrNull e)

/-- `HiddenMarkovModel.estimate` (`hidden_markov_model.py:578-609`). -/
def hmmEstimateApi (possibleStates possibleSymbols states symbols : PyVal K) : R (HMM K) :=
  validateLabelsInput possibleStates none >>= fun ls =>
  validateLabelsInput possibleSymbols none >>= fun lsy =>
  validateSequence states ls >>= fun ss =>
  validateSequence symbols lsy >>= fun ys =>
  if ls.any fun s => s ∈ lsy then throw .valueError
  else if ss.length ≠ ys.length then throw .valueError
  else
    let r : Matrix (Fin ls.length) (Fin ls.length) K × Matrix (Fin ls.length) (Fin lsy.length) K :=
      hmmEstimate ls.length lsy.length ss ys true
    pure ⟨ls.length, lsy.length, r.1, r.2, ls, lsy⟩

/-! ## Fitting -/

/-- `_fit_baum_welch` (`fitting.py:72-101`): the logarithm of the probability and the expected
counts. The code computes the products as `exp` of sums of logarithms. -/
noncomputable def baumWelch (P : Matrix (Fin n) (Fin n) ℝ) (E : Matrix (Fin n) (Fin k) ℝ)
    (init : Fin n → ℝ) (symbols : List (Fin k)) :
    Option (ℝ × Matrix (Fin n) (Fin n) ℝ × Matrix (Fin n) (Fin k) ℝ) :=
  (hmmDecode P E init symbols true).map fun r =>
    let b := fun t s => (r.2.backward.getD t fun _ => 0) s
    let f := fun t s => (r.2.forward.getD t fun _ => 0) s
    (r.1,
      fun u v => ∑ w : Fin symbols.length,
        b (w.val + 1) v * f w.val u * P u v * E v (symbols.get w) / r.2.factors.getD (w.val + 1) 0,
      fun u v => ∑ w : Fin symbols.length, if symbols.get w = v then b (w.val + 1) u * f (w.val + 1) u else 0)

/-- `_fit_prediction` (`fitting.py:103-113`); the logarithm of the probability of a predicted path is
finite, `0` is never used. -/
noncomputable def fitPrediction (rnd : ℝ → ℝ) (type : String) (P : Matrix (Fin n) (Fin n) ℝ)
    (E : Matrix (Fin n) (Fin k) ℝ) (init : Fin n → ℝ) (symbols : List (Fin k)) :
    Option (ℝ × Matrix (Fin n) (Fin n) ℝ × Matrix (Fin n) (Fin k) ℝ) :=
  (hmmPredict rnd type P E init symbols).map fun r =>
    (r.1.unbotD 0, hmmEstimate n k (r.2.map Fin.val) (symbols.map Fin.val) false)

/-- `np.linalg.norm(A - B, ord=np.inf) / columns < 1e-6` (`fitting.py:59-67`): the largest absolute
row sum. -/
def closeMatrices (A B : Matrix (Fin n) (Fin k) K) : Prop :=
  ∀ i, (∑ j, |A i j - B i j|) / k < 1 / 10 ^ 6

/-- `_check_convergence` (`fitting.py:52-69`). -/
def checkConvergence (ll llPrev : K) (P Pprev : Matrix (Fin n) (Fin n) K)
    (E Eprev : Matrix (Fin n) (Fin k) K) : Prop :=
  |ll - llPrev| / (1 + |llPrev|) < 1 / 10 ^ 6 ∧ closeMatrices P Pprev ∧ closeMatrices E Eprev

/-- One pass of the loop over the sequences (`fitting.py:131-139`); a sequence without result is
skipped. -/
def addResult (acc : K × Matrix (Fin n) (Fin n) K × Matrix (Fin n) (Fin k) K)
    (r : Option (K × Matrix (Fin n) (Fin n) K × Matrix (Fin n) (Fin k) K)) :
    K × Matrix (Fin n) (Fin n) K × Matrix (Fin n) (Fin k) K :=
  match r with
  | none => acc
  | some x => (acc.1 + x.1, fun i j => acc.2.1 i j + x.2.1 i j, fun i j => acc.2.2 i j + x.2.2 i j)

/-- The sums over the sequences (`fitting.py:127-139`). -/
def sumResults (results : List (Option (K × Matrix (Fin n) (Fin n) K × Matrix (Fin n) (Fin k) K))) :
    K × Matrix (Fin n) (Fin n) K × Matrix (Fin n) (Fin k) K :=
  results.foldl addResult (0, fun _ _ => 0, fun _ _ => 0)

open Classical in
/-- The loop of `hmm_fit` (`fitting.py:124-169`); `fuel` is the number of iterations left and
`func` the fitting function. The three error messages are `valueError`. -/
noncomputable def fitLoop (func : Matrix (Fin n) (Fin n) ℝ → Matrix (Fin n) (Fin k) ℝ → List (Fin k) →
      Option (ℝ × Matrix (Fin n) (Fin n) ℝ × Matrix (Fin n) (Fin k) ℝ))
    (symbols : List (List (Fin k))) : ℕ → ℝ → Matrix (Fin n) (Fin n) ℝ → Matrix (Fin n) (Fin k) ℝ →
      R (Matrix (Fin n) (Fin n) ℝ × Matrix (Fin n) (Fin k) ℝ)
  | 0, _, _, _ => throw .valueError
  | fuel + 1, ll, P, E =>
    let r := sumResults (symbols.map (func P E))
    if ∃ i, ∑ j, r.2.1 i j = 0 then throw .valueError
    else if ∃ i, ∑ j, r.2.2 i j = 0 then throw .valueError
    else if checkConvergence r.1 ll (normalizeRows r.2.1) P (normalizeRows r.2.2) E then
      pure (normalizeRows r.2.1, normalizeRows r.2.2)
    else fitLoop func symbols fuel r.1 (normalizeRows r.2.1) (normalizeRows r.2.2)

/-- `hmm_fit` (`fitting.py:50-169`). -/
noncomputable def hmmFit (rnd : ℝ → ℝ) (type : String) (P : Matrix (Fin n) (Fin n) ℝ)
    (E : Matrix (Fin n) (Fin k) ℝ) (init : Fin n → ℝ) (symbols : List (List (Fin k))) :
    R (Matrix (Fin n) (Fin n) ℝ × Matrix (Fin n) (Fin k) ℝ) :=
  fitLoop (fun P E => if type = "baum-welch" then baumWelch P E init
    else fitPrediction rnd type P E init) symbols 500 1 P E

/-- `validate_sequences` with `flex=True` (`validation.py:889-919`). An exception raised for one of the
sequences becomes a `ValueError`. -/
def validateSequencesFlex (v : PyVal K) (labels : List String) : R (List (List ℕ)) :=
  match v with
  | .list l =>
    if l.length < 2 then throw .valueError
    else if l.all PyVal.isList then
      match l.mapM fun x => validateSequence x labels with
      | .ok r => pure r
      | .error _ => throw .valueError
    else if l.all PyVal.isInteger ∨ l.all PyVal.isString then
      match validateSequence v labels with
      | .ok r => pure [r]
      | .error _ => throw .valueError
    else throw .typeError
  | _ => throw .valueError

/-- `HiddenMarkovModel.fit` (`hidden_markov_model.py:613-655`). The number of columns of the emission
guess is not compared with the number of symbols. A symbol without a column makes the indexing of the
guess fail; here this is an error even if the column would not be reached because an earlier symbol is
impossible. -/
noncomputable def hmmFitApi (rnd : ℝ → ℝ) (type possibleStates possibleSymbols pGuess eGuess symbols
    status : PyVal ℝ) : R (HMM ℝ) :=
  validateEnumerator type ["baum-welch", "map", "mle", "viterbi"] >>= fun t =>
  validateLabelsInput possibleStates none >>= fun ls =>
  validateLabelsInput possibleSymbols none >>= fun lsy =>
  validateTransitionMatrix pGuess (some ls.length) >>= fun P =>
  validateEmissionMatrix eGuess P.1 >>= fun E =>
  validateSequencesFlex symbols lsy >>= fun ys =>
  initialStatus status ls P.1 >>= fun init =>
  if ls.any fun s => s ∈ lsy then throw .valueError
  else if ys.any fun l => l.any fun y => E.1 ≤ y then throw .valueError
  else
    hmmFit rnd t P.2 E.2 init (ys.map (toStates E.1)) >>= fun r =>
    pure ⟨P.1, E.1, r.1, r.2, ls, lsy⟩

end Verif
