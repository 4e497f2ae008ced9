import Verif.Model.Generators
import Mathlib.Algebra.Order.Floor.Defs
import Mathlib.Analysis.SpecialFunctions.Trigonometric.Basic
import Mathlib.Analysis.Real.Sqrt

/-!
# Fitting chains to sequences and to functions

Models `/repo/pydtmc/fitting.py` (`mc_fit_sequence`, `mc_fit_function`) and the methods
`fit_sequence` and `fit_function` of `MarkovChain`.
-/

namespace Verif

/-! ## Sequences -/

section sequence
variable {K : Type} [Field K] [LinearOrder K]

/-- `f[i, j] += 1` (`fitting.py:300`, `:322`). -/
def addCount {n : ℕ} (M : Matrix (Fin n) (Fin n) ℕ) (x : ℕ × ℕ) : Matrix (Fin n) (Fin n) ℕ :=
  fun i j => if (i : ℕ) = x.1 ∧ (j : ℕ) = x.2 then M i j + 1 else M i j

/-- The loop over `zip(sequence[:-1], sequence[1:])` (`fitting.py:299-300`, `:321-322`). -/
def countMatrix (n : ℕ) (seq : List ℕ) : Matrix (Fin n) (Fin n) ℕ :=
  (seq.dropLast.zip seq.tail).foldl addCount fun _ _ => 0

/-- The maximum likelihood branch (`fitting.py:319-328`). -/
def fitMle (n : ℕ) (seq : List ℕ) (smoothing : Bool) : Matrix (Fin n) (Fin n) K :=
  normalizeRows <| fillNullRows fun i j =>
    (countMatrix n seq i j : K) + if smoothing then 1 / 1000 else 0

/-- The maximum a posteriori branch before the final normalisation (`fitting.py:294-317`). -/
def fitMapRaw (n : ℕ) (seq : List ℕ) (h : Matrix (Fin n) (Fin n) K) : Matrix (Fin n) (Fin n) K :=
  fun i j =>
    let rt := ((∑ l, countMatrix n seq i l : ℕ) : K) + ∑ l, h i l
    if rt = n then 1 / n
    else ((countMatrix n seq i j : K) + h i j - 1) / (rt - n)

/-- The maximum a posteriori branch (`fitting.py:294-317`, `:327-328`). -/
def fitMap (n : ℕ) (seq : List ℕ) (h : Matrix (Fin n) (Fin n) K) : Matrix (Fin n) (Fin n) K :=
  normalizeRows (fillNullRows (fitMapRaw n seq h))

variable [FloorRing K]

/-- The test on the entries of a hyper-parameter (`validation.py:448`). -/
def Flt.isHyper : Flt K → Bool
  | .fin x => decide (x - (⌊x⌋ : K) = 0) && decide (1 ≤ x)
  | _ => false

/-- `validate_hyperparameter` (`validation.py:438-451`). -/
def validateHyper (v : PyVal K) (n : ℕ) : R (Matrix (Fin n) (Fin n) K) :=
  match extractNumeric v with
  | some (.mat rows) =>
    if rows.length ≠ n ∨ ¬ hasWidth rows n then throw .valueError
    else if ¬ rows.all (fun r => r.all Flt.isHyper) then throw .valueError
    else pure (toMat rows n n)
  | some (.vec _) => throw .valueError
  | none => throw .typeError

/-- `MarkovChain.fit_sequence` (`markov_chain.py:2306-2347`). -/
def fitSequence (type possible sequence param : PyVal K) : R (MC K) :=
  validateLabelsInput possible none >>= fun labels =>
  validateSequence sequence labels >>= fun seq =>
  validateEnumerator type ["map", "mle"] >>= fun type =>
  if type = "map" then
    (match param with
      | .none => pure (Matrix.of fun _ _ => 1)
      | v => validateHyper v labels.length) >>= fun h =>
    pure ⟨labels.length, fitMap labels.length seq h, labels⟩
  else
    (match param with
      | .none => pure false
      | v => validateBoolean v) >>= fun smoothing =>
    pure ⟨labels.length, fitMle labels.length seq smoothing, labels⟩

end sequence

/-! ## Functions -/

/-- The quadrature rules of `mc_fit_function`. -/
inductive Rule
  | chebyshev
  | legendre
  | niederreiter
  | newtonCotes
  | simpson
  | trapezoid
deriving DecidableEq

/-- `np.linspace(a, b, size)` at index `j` (`fitting.py:243`, `:252`). -/
noncomputable def linspace (a b : ℝ) (size j : ℕ) : ℝ := a + j * ((b - a) / ((size : ℝ) - 1))

/-- `t3` (`fitting.py:184`). -/
noncomputable def chebyshevCoeff (m : ℕ) : ℝ :=
  if m = 0 then 1 else -2 / ((2 * (m : ℝ) - 1) * (2 * (m : ℝ) + 1))

/-- The weights of the Gauss-Chebyshev rule (`fitting.py:182-187`); `t2` has `⌈size / 2⌉` entries
`2 * m`. -/
noncomputable def chebyshevWeight (a b : ℝ) (size j : ℕ) : ℝ :=
  ∑ m ∈ Finset.range ((size + 1) / 2),
    (b - a) / size * Real.cos (Real.pi / size * ((j + 1 / 2) * (2 * m))) * chebyshevCoeff m

/-- The inner loop of the Gauss-Legendre rule (`fitting.py:203-209`): the pair `(p1, p2)` after
`j` rounds. -/
noncomputable def legendrePair (z : ℝ) : ℕ → ℝ × ℝ
  | 0 => (1, 0)
  | j + 1 =>
    let q := legendrePair z j
    (((2 * ((j : ℝ) + 1) - 1) * z * q.1 - j * q.2) / (j + 1), q.1)

/-- `pp` (`fitting.py:211`). -/
noncomputable def legendreSlope (size : ℕ) (z : ℝ) : ℝ :=
  size * ((z * (legendrePair z size).1 - (legendrePair z size).2) / (z ^ 2 - 1))

/-- One Newton step (`fitting.py:214`). -/
noncomputable def legendreStep (size : ℕ) (z : ℝ) : ℝ :=
  z - (legendrePair z size).1 / legendreSlope size z

open Classical in
/-- The Newton iteration (`fitting.py:199-220`): the final `z` and the last `pp`. The code fails
when the loop reaches round 100, so 99 rounds are useful. A division by zero in `pp` or in the step
gives an infinity or a NaN, which never meets the tolerance, so the remaining rounds are used up. -/
noncomputable def legendreLoop (size : ℕ) {h : ℕ} :
    ℕ → (Fin h → ℝ) → Option ((Fin h → ℝ) × (Fin h → ℝ))
  | 0, _ => none
  | fuel + 1, z =>
    let z' := fun i => legendreStep size (z i)
    if ∃ i, z i ^ 2 = 1 ∨ legendreSlope size (z i) = 0 then none
    else if ∀ i, |(|z' i - z i|) - 0| ≤ 1 / 10 ^ 8 then some (z', fun i => legendreSlope size (z i))
    else legendreLoop size fuel z'

/-- The start of the Newton iteration (`fitting.py:195-197`). -/
noncomputable def legendreStart (size : ℕ) : Fin ((size + 1) / 2) → ℝ := fun i =>
  Real.cos (Real.pi * ((i + 1) - 1 / 4) / (size + 1 / 2))

/-- Index of the root used for node `j`: the second assignment overwrites the middle node. -/
theorem legendreIndex_lt {size : ℕ} (j : Fin size) :
    min (j : ℕ) (size - 1 - j) < (size + 1) / 2 := by
  have := j.isLt
  omega

/-- The nodes and weights placed for the final `z` and `pp` (`fitting.py:222-229`). -/
noncomputable def legendrePlace (a b : ℝ) (size : ℕ) (zp : (Fin ((size + 1) / 2) → ℝ) × (Fin ((size + 1) / 2) → ℝ)) :
    (Fin size → ℝ) × (Fin size → ℝ) :=
  let xl := 1 / 2 * (b - a)
  let xm := 1 / 2 * (b + a)
  let z := fun j : Fin size => zp.1 ⟨_, legendreIndex_lt j⟩
  let pp := fun j : Fin size => zp.2 ⟨_, legendreIndex_lt j⟩
  (fun j => if size - 1 - j ≤ (j : ℕ) then xm + xl * z j else xm - xl * z j,
   fun j => 2 * xl / ((1 - z j ^ 2) * pp j ^ 2))

/-- The nodes and weights of the Gauss-Legendre rule (`fitting.py:189-229`). -/
noncomputable def legendreRule (a b : ℝ) (size : ℕ) : Option ((Fin size → ℝ) × (Fin size → ℝ)) :=
  (legendreLoop size 99 (legendreStart size)).map (legendrePlace a b size)

/-- Nodes and weights of each rule (`fitting.py:180-263`). -/
noncomputable def quadrature (r : Rule) (a b : ℝ) (size : ℕ) :
    Option ((Fin size → ℝ) × (Fin size → ℝ)) :=
  match r with
  | .chebyshev => some
    (fun j => (b + a) / 2 - (b - a) / 2 * Real.cos (Real.pi / size * (j + 1 / 2)),
     fun j => chebyshevWeight a b size j)
  | .legendre => legendreRule a b size
  | .niederreiter => some
    (fun j => a + ((j + 1) * Real.sqrt 2 - (⌊(j + 1) * Real.sqrt 2⌋ : ℝ)) * (b - a),
     fun _ => (b - a) / size * 1)
  | .simpson => some
    (fun j => linspace a b size j,
     fun j => (linspace a b size 1 - linspace a b size 0) / 3 *
       if (j : ℕ) = 0 ∨ (j : ℕ) = size - 1 then 1 else if (j : ℕ) % 2 = 0 then 2 else 4)
  | .trapezoid => some
    (fun j => linspace a b size j,
     fun j => (linspace a b size 1 - linspace a b size 0) *
       if (j : ℕ) = 0 ∨ (j : ℕ) = size - 1 then 1 / 2 else 1)
  | .newtonCotes => some
    (fun j => (j + 1 / 2) * ((b - a) / size), fun _ => (b - a) / size)

open Classical in
/-- `mc_fit_function` (`fitting.py:173-286`). `f` returns `none` when the Python function raises or
returns a value that is not finite. -/
noncomputable def fitFunctionMatrix (r : Rule) (a b : ℝ) (size : ℕ)
    (f : ℕ → ℝ → ℕ → ℝ → Option ℝ) : R (Matrix (Fin size) (Fin size) ℝ) :=
  match quadrature r a b size with
  | none => throw .valueError
  | some (x, w) =>
    if ∃ i j : Fin size, f i (x i) j (x j) = none then throw .valueError
    else pure <| normalizeRows <| fillNullRows fun i j => (f i (x i) j (x j)).getD 0 * w j

/-- `MarkovChain.fit_function` (`markov_chain.py:2254-2302`) with the rule already read, and an
interval accepted by `validate_interval` (`validation.py:466-487`) given by its ends. -/
noncomputable def fitFunction (r : Rule) (possible : PyVal ℝ) (f : ℕ → ℝ → ℕ → ℝ → Option ℝ)
    (a b : ℝ) : R (MC ℝ) :=
  validateLabelsInput possible none >>= fun labels =>
  if r = .simpson ∧ labels.length % 2 = 0 then throw .valueError
  else
    fitFunctionMatrix r a b labels.length f >>= fun p =>
    pure ⟨labels.length, p, labels⟩

/-! ## Arguments of `fit_function` -/

/-- A Python function with named parameters. The body receives a value for each name; it returns
`none` when it raises or when its value is not a finite number. Parameters that are not positional are
not represented. -/
structure PyFunction where
  params : List String
  body : (String → ℝ) → Option ℝ

/-- A call with positional arguments. -/
def PyFunction.call (f : PyFunction) (args : List ℝ) : Option ℝ :=
  f.body fun name => ((f.params.zip args).lookup name).getD 0

/-- The names of the parameters (`validation.py:1041`). -/
def transitionParams : List String := ["x_index", "x_value", "y_index", "y_value"]

/-- `validate_transition_function` (`validation.py:1031-1059`) for a function. -/
def validateTransitionFunction (f : PyFunction) : R PyFunction :=
  if f.params.length ≠ 4 then throw .valueError
  else if ¬ f.params.all (fun x => decide (x ∈ transitionParams)) then throw .valueError
  else if f.call [1, 1, 1, 1] = none then throw .valueError
  else pure f

/-- `float(a)` for an integer or a float (`validation.py:476-481`). -/
noncomputable def intervalEnd : PyVal ℝ → Option ℝ
  | .int z => some z
  | .float (.fin x) => some x
  | _ => none

/-- `validate_interval` (`validation.py:466-487`). -/
noncomputable def validateInterval (v : PyVal ℝ) : R (ℝ × ℝ) :=
  match v with
  | .tuple [x, y] =>
    match intervalEnd x, intervalEnd y with
    | some a, some b =>
      if ¬ (0 ≤ a ∧ 0 ≤ b) then throw .valueError
      else if b ≤ a then throw .valueError
      else pure (a, b)
    | _, _ => throw .valueError
  | .tuple _ => throw .valueError
  | _ => throw .typeError

/-- The rule of a name (`markov_chain.py:2284`, `fitting.py:180-258`). -/
def ruleNamed : String → Rule
  | "gauss-chebyshev" => .chebyshev
  | "gauss-legendre" => .legendre
  | "niederreiter" => .niederreiter
  | "simpson-rule" => .simpson
  | "trapezoid-rule" => .trapezoid
  | _ => .newtonCotes

/-- The interval (`markov_chain.py:2287`). -/
noncomputable def optionalInterval (v : PyVal ℝ) : R (ℝ × ℝ) :=
  match v with
  | .none => pure (0, 1)
  | v => validateInterval v

/-- `MarkovChain.fit_function` (`markov_chain.py:2282-2302`) with all its arguments. The labels are
validated before the interval in the source, which only matters for the kind of the exception. -/
noncomputable def fitFunctionCall (type possible : PyVal ℝ) (f : PyFunction) (interval : PyVal ℝ) :
    R (MC ℝ) :=
  validateEnumerator type ["gauss-chebyshev", "gauss-legendre", "niederreiter", "newton-cotes",
    "simpson-rule", "trapezoid-rule"] >>= fun t =>
  validateTransitionFunction f >>= fun g =>
  optionalInterval interval >>= fun ab =>
  fitFunction (ruleNamed t) possible (fun i x j y => g.call [i, x, j, y]) ab.1 ab.2

end Verif
