import Verif.Model.Hidden
import Verif.Model.Fitting
import Mathlib.Analysis.SpecialFunctions.Log.Basic

/-!
# Statistical tests

Models `/repo/pydtmc/assessments.py` and `chi2_contingency` of `/repo/pydtmc/computations.py`.

`scipy.stats.chi2.cdf` is a parameter.
-/

namespace Verif

open Finset

section
variable {K : Type} [Field K] [LinearOrder K]

/-- The loop `ct[p, f] += 1` over a list of cells (`assessments.py:97`, `:344`). -/
def countCells (m n : ℕ) (cells : List (ℕ × ℕ)) : Matrix (Fin m) (Fin n) ℕ :=
  cells.foldl (fun M x i j => if (i : ℕ) = x.1 ∧ (j : ℕ) = x.2 then M i j + 1 else M i j) fun _ _ => 0

/-- The table of expected frequencies (`computations.py:133-135`). -/
def expectedTable {m n : ℕ} (T : Matrix (Fin m) (Fin n) K) : Matrix (Fin m) (Fin n) K :=
  fun i j => (∑ l, T i l) * (∑ l, T l j) / ∑ r, ∑ l, T r l

/-- `magnitude * direction` (`computations.py:147-149`). -/
def continuityCorrection (o e : K) : K :=
  let diff := e - o
  let direction : K := if 0 < diff then 1 else if diff < 0 then -1 else 0
  min (1 / 2) |diff| * direction

/-- The statistic computed by `chi2_contingency` (`computations.py:126-155`); the second component of
its result is not used by the tests. `none` stands for an exception and for `nan`, which are treated
alike by the callers. The sum of the table is zero only if all expected values are `nan` in the code
and `0` here; the result is `none` in both cases. -/
def chi2Contingency {m n : ℕ} (T : Matrix (Fin m) (Fin n) K) : Option K :=
  let e := expectedTable T
  if (∃ x : Fin m × Fin n, T x.1 x.2 < 0) ∨ ∃ x : Fin m × Fin n, e x.1 x.2 = 0 then none
  else
    let dof : ℤ := m * n - (m + n) + 1
    if dof = 0 then some 0
    else
      let o : Matrix (Fin m) (Fin n) K :=
        fun i j => if dof = 1 then T i j + continuityCorrection (T i j) (e i j) else T i j
      some (∑ i, ∑ j, (o i j - e i j) ^ 2 / e i j)

/-- `scipy.stats.chisquare` of the single row of a table (`assessments.py:310`): the expected value of
every cell is the mean. -/
def chi2Standard {n : ℕ} (row : Fin n → K) : Option K :=
  let mean := (∑ j, row j) / n
  if mean = 0 then none else some (∑ j, (row j - mean) ^ 2 / mean)

/-- The cells of the table of one state in `assess_first_order` (`assessments.py:93-97`). The code
compares labels; these are distinct. -/
def tripleCells (seq : List ℕ) (s : ℕ) : List (ℕ × ℕ) :=
  (List.range (seq.length - 2)).filterMap fun i =>
    if seq.getD (i + 1) 0 = s then some (seq.getD i 0, seq.getD (i + 2) 0) else none

/-- The cells of the table of one state in `assess_stationarity` (`assessments.py:340-344`);
`math.ceil((i + 1) / block_size) - 1` with `block_size = k / blocks` is computed exactly here. -/
def blockCells (blocks : ℕ) (seq : List ℕ) (s : ℕ) : List (ℕ × ℕ) :=
  (List.range (seq.length - 1)).filterMap fun i =>
    if seq.getD i 0 = s then
      some (((i + 1) * blocks + seq.length - 1) / seq.length - 1, seq.getD (i + 1) 0)
    else none

/-- `ct[argwhere(sum(ct, axis=1) == 0), :] = 1 / n` and the division by the row sums
(`assessments.py:346-347`). -/
def blockTable (blocks n : ℕ) (cells : List (ℕ × ℕ)) : Matrix (Fin blocks) (Fin n) K :=
  let ct := countCells blocks n cells
  normalizeRows fun i j => if ∑ l, ct i l = 0 then 1 / (n : K) else ct i j

/-- The statistic of one state in `assess_stationarity` (`assessments.py:297-314`, `:332`, `:349`). -/
def blockChi2 (blocks n : ℕ) (cells : List (ℕ × ℕ)) : Option K :=
  let T : Matrix (Fin blocks) (Fin n) K := blockTable blocks n cells
  if h : blocks = 1 then chi2Standard (T ⟨0, by omega⟩) else chi2Contingency T

end

/-! ## Results -/

/-- The result of a test: rejection, p-value, and the dictionary of the statistic and the degrees of
freedom (`nan` is `none`). -/
structure TestResult where
  rejection : Option Bool
  pValue : Flt ℝ
  chi2 : Flt ℝ
  dof : Option ℤ

/-- `None, nan, {'chi2': nan, 'dof': nan}` (`assessments.py:105`, `:153`, `:352`). -/
def TestResult.undefined : TestResult := ⟨none, .nan, .nan, none⟩

/-- `1.0 - x` for floats. -/
def oneMinus : Flt ℝ → Flt ℝ
  | .fin x => .fin (1 - x)
  | .nan => .nan
  | .inf b => .inf !b

open Classical in
/-- `p_value < significance` for floats. -/
noncomputable def belowThreshold (p : Flt ℝ) (significance : ℝ) : Bool :=
  match p with
  | .fin x => decide (x < significance)
  | .nan => false
  | .inf b => b

/-- The conclusion of a test (`assessments.py:110-113`, `:187-190`, `:408-411`). -/
noncomputable def conclude (cdf : Flt ℝ → ℤ → Flt ℝ) (chi2 : Flt ℝ) (dof : ℤ) (significance : ℝ) :
    TestResult :=
  let p := oneMinus (cdf chi2 dof)
  ⟨some (belowThreshold p significance), p, chi2, some dof⟩

/-- The conclusion of a test in which null degrees of freedom give the p-value `0`
(`assessments.py:278-281`, `:357-360`). -/
noncomputable def concludeNull (cdf : Flt ℝ → ℤ → Flt ℝ) (chi2 : Flt ℝ) (dof : ℤ) (significance : ℝ) :
    TestResult :=
  let p := if dof = 0 then .fin 0 else oneMinus (cdf chi2 dof)
  ⟨some (belowThreshold p significance), p, chi2, some dof⟩

/-- The significance argument (`assessments.py:79`, `:132`, `:246`, `:321`, `:379`); the literal `0.2`
is one fifth. -/
noncomputable def validateSignificance (v : PyVal ℝ) : R ℝ := validateFloat v (some (0, true)) (some (1 / 5, false))

/-! ## The tests -/

/-- `assess_first_order` (`assessments.py:64-113`). -/
noncomputable def assessFirstOrder (cdf : Flt ℝ → ℤ → Flt ℝ)
    (possibleStates sequence significance : PyVal ℝ) : R TestResult :=
  validateLabelsInput possibleStates none >>= fun labels =>
  validateSequence sequence labels >>= fun seq =>
  validateSignificance significance >>= fun sig =>
  let n := labels.length
  pure <| match (List.range n).mapM fun s => chi2Contingency fun i j : Fin n =>
      (countCells n n (tripleCells seq s) i j : ℝ) with
    | none => .undefined
    | some l => conclude cdf (.fin l.sum) (n * (n - 1) ^ 2) sig

/-- `validate_sequences` with `flex=False` (`validation.py:889-919`). -/
def validateSequencesList (v : PyVal ℝ) (labels : List String) : R (List (List ℕ)) :=
  match v with
  | .list l =>
    if l.length < 2 then throw .valueError
    else if l.all PyVal.isList then
      match l.mapM fun x => validateSequence x labels with
      | .ok r => pure r
      | .error _ => throw .valueError
    else throw .typeError
  | _ => throw .valueError

/-- `intersections_found` contains `True` (`assessments.py:139-152`). -/
def intersectionFound (seqs : List (List ℕ)) : Bool :=
  (List.range seqs.length).any fun i => (List.range seqs.length).any fun j =>
    decide (i ≠ j) && (seqs.getD i []).any fun x => decide (x ∈ seqs.getD j [])

/-- `f_pooled` (`assessments.py:156-166`). -/
def pooledCount (n : ℕ) (seqs : List (List ℕ)) : Matrix (Fin n) (Fin n) ℕ :=
  fun i j => (seqs.map fun s => countMatrix n s i j).sum

/-- The sum over one sequence (`assessments.py:174-183`). -/
noncomputable def homogeneityTerm {n : ℕ} (pooled f : Matrix (Fin n) (Fin n) ℕ) : ℝ :=
  ∑ i, ∑ j, if 0 < f i j ∧ 0 < pooled i j then
    (f i j : ℝ) * Real.log (((∑ r, ∑ l, pooled r l : ℕ) * f i j) / ((∑ r, ∑ l, f r l : ℕ) * pooled i j))
  else 0

/-- `assess_homogeneity` (`assessments.py:117-190`). -/
noncomputable def assessHomogeneity (cdf : Flt ℝ → ℤ → Flt ℝ)
    (possibleStates sequences significance : PyVal ℝ) : R TestResult :=
  validateLabelsInput possibleStates none >>= fun labels =>
  validateSequencesList sequences labels >>= fun seqs =>
  validateSignificance significance >>= fun sig =>
  let n := labels.length
  pure <|
    if intersectionFound seqs then
      conclude cdf (.fin ((seqs.map fun s =>
        homogeneityTerm (pooledCount n seqs) (countMatrix n s)).sum * 2))
        (n * (n - 1) * (seqs.length - 1)) sig
    else .undefined

/-- `assess_stationarity` (`assessments.py:284-360`). -/
noncomputable def assessStationarity (cdf : Flt ℝ → ℤ → Flt ℝ)
    (possibleStates sequence blocks significance : PyVal ℝ) : R TestResult :=
  validateLabelsInput possibleStates none >>= fun labels =>
  validateSequence sequence labels >>= fun seq =>
  validateInteger blocks (some (1, false)) none >>= fun b =>
  validateSignificance significance >>= fun sig =>
  let n := labels.length
  pure <| match (List.range n).mapM fun s => blockChi2 b.toNat n (blockCells b.toNat seq s) with
    | none => .undefined
    | some l => concludeNull cdf (.fin l.sum) (n * (n - 1) * (b - 1)) sig

/-- The statistic of `assess_theoretical_compatibility` (`assessments.py:392-406`). `f_i` is the sum
of a column. A term with `f_i = 0` is infinite; no term is `nan` or negative infinite. -/
noncomputable def compatibilityStatistic {n : ℕ} (p : Matrix (Fin n) (Fin n) ℝ)
    (f : Matrix (Fin n) (Fin n) ℕ) : Flt ℝ :=
  open Classical in
  if ∃ i j, 0 < p i j ∧ 0 < f i j ∧ ∑ l, f l i = 0 then .inf false
  else .fin ((∑ i, ∑ j, if 0 < p i j ∧ 0 < f i j then
    (f i j : ℝ) * Real.log (f i j / ((∑ l, f l i : ℕ) * p i j)) else 0) * 2)

open Classical in
/-- `assess_theoretical_compatibility` (`assessments.py:364-413`). -/
noncomputable def assessTheoreticalCompatibility (cdf : Flt ℝ → ℤ → Flt ℝ) (c : MC ℝ)
    (sequence significance : PyVal ℝ) : R TestResult :=
  validateSequence sequence c.states >>= fun seq =>
  validateSignificance significance >>= fun sig =>
  let f := countMatrix c.n seq
  pure <|
    if ∀ i j, c.p i j = 0 → f i j = 0 then
      conclude cdf (compatibilityStatistic c.p f)
        (c.n * (c.n - 1) - (c.n ^ 2 - (univ.filter fun x : Fin c.n × Fin c.n => c.p x.1 x.2 ≠ 0).card)) sig
    else ⟨some true, .fin 0, .nan, none⟩

/-- The sequence without its last elements, so that its length is a multiple of three
(`assessments.py:256-257`). -/
def markovSample (seq : List ℕ) : List ℕ := seq.take (seq.length - seq.length % 3)

/-- The rows of `set3` (`assessments.py:258-262`). -/
def sampleTriples (l : List ℕ) : List (ℕ × ℕ × ℕ) :=
  (List.range (l.length - 2)).map fun i => (l.getD i 0, l.getD (i + 1) 0, l.getD (i + 2) 0)

/-- The rows of `set2` (`assessments.py:265`): the first two components of the triples. -/
def samplePairs (l : List ℕ) : List (ℕ × ℕ) := (sampleTriples l).map fun x => (x.1, x.2.1)

/-- One term of the statistic of `assess_markov_property` (`assessments.py:270-272`): the number of
occurrences of a triple, and the expected number, which is the number of occurrences of its first pair
(found by `_fnp_iteration`, `assessments.py:205-222`, as the only row of `sts2` having both components)
multiplied by the fitted probability of the last transition. -/
noncomputable def markovTerm {n : ℕ} (p : Matrix (Fin n) (Fin n) ℝ) (l : List ℕ) (x : ℕ × ℕ × ℕ) : ℝ :=
  let o : ℝ := (sampleTriples l).count x
  let e : ℝ := (samplePairs l).count (x.1, x.2.1) *
    (if h : x.2.1 < n ∧ x.2.2 < n then p ⟨x.2.1, h.1⟩ ⟨x.2.2, h.2⟩ else 0)
  (o - e) ^ 2 / e

/-- `doubles` (`assessments.py:274`): the concatenated labels. -/
def doubleWords (labels : List String) (seq : List ℕ) : List String :=
  (List.range (seq.length - 1)).map fun i =>
    labels.getD (seq.getD i 0) "" ++ labels.getD (seq.getD (i + 1) 0) ""

/-- `triples` (`assessments.py:275`). -/
def tripleWords (labels : List String) (seq : List ℕ) : List String :=
  (List.range (seq.length - 2)).map fun i =>
    labels.getD (seq.getD i 0) "" ++ labels.getD (seq.getD (i + 1) 0) "" ++
      labels.getD (seq.getD (i + 2) 0) ""

/-- The degrees of freedom of `assess_markov_property` (`assessments.py:274-276`). -/
def markovDof (labels : List String) (seq : List ℕ) : ℤ :=
  (tripleWords labels seq).dedup.length - (doubleWords labels seq).dedup.length +
    (seq.map fun i => labels.getD i "").dedup.length - 1

/-- `assess_markov_property` (`assessments.py:194-281`). The distinct triples are the rows of `sts3`;
their order does not matter for the sum. -/
noncomputable def assessMarkovProperty (cdf : Flt ℝ → ℤ → Flt ℝ)
    (possibleStates sequence significance : PyVal ℝ) : R TestResult :=
  validateLabelsInput possibleStates none >>= fun labels =>
  validateSequence sequence labels >>= fun seq =>
  validateSignificance significance >>= fun sig =>
  let p : Matrix (Fin labels.length) (Fin labels.length) ℝ := fitMle labels.length seq false
  let sample := markovSample seq
  let chi2 := ((sampleTriples sample).dedup.map (markovTerm p sample)).sum
  pure (concludeNull cdf (.fin chi2) (markovDof labels seq) sig)

end Verif
