import Verif.Model.Serial

/-!
# The kinds of the exceptions of files

Models the exceptions of `read_json` of `/repo/pydtmc/files_io.py` in `MarkovChain.from_file` and
`HiddenMarkovModel.from_file`. The model of `Verif.Model.Serial` converts every integer exactly. Here the
conversion of an integer that is too large for a float fails with an `OverflowError`, which is not a
`ValueError`.
-/

namespace Verif

variable {K : Type}

/-- An exception of a reader: one of the usual ones, or an `OverflowError`. -/
inductive FileErr
  | usual (e : Err)
  | overflow
deriving DecidableEq

/-- The computations that do not overflow. -/
def usually {α : Type} (r : R α) : Except FileErr α := r.mapError FileErr.usual

/-- `float(value)` of an integer fails if the value rounds to `2 ^ 1024` or more. -/
def fitsFloat (z : ℤ) : Bool := decide (|z| < 2 ^ 1024 - 2 ^ 970)

/-- The number of an object (`files_io.py:210-215`): the conversion is not inside a `try`. -/
def jsonFloat [Field K] (v : Option (PyVal K)) : Except FileErr K :=
  match v with
  | some (.int z) => if fitsFloat z then pure (z : K) else throw .overflow
  | v => usually (jsonNumber v)

/-- One object of `read_json` (`files_io.py:196-227`): the number is the last of the attributes
(`files_io.py:48-59`). -/
def loadJsonObject [Field K] (mc : Bool) (o : List (String × PyVal K)) :
    Except FileErr (List String × K) :=
  if ¬ sameKeys mc (o.map Prod.fst) then throw (.usual .valueError)
  else
    usually ((attributeNames mc).mapM fun k => jsonString (o.lookup k)) >>= fun key =>
    if ¬ mc ∧ key.head? ≠ some "E" ∧ key.head? ≠ some "P" then throw (.usual .valueError)
    else jsonFloat (o.lookup "probability") >>= fun v => pure (key, v)

/-- `read_json` (`files_io.py:182-229`). -/
def loadJson [Field K] (mc : Bool) (data : List (List (String × PyVal K))) :
    Except FileErr (PyDict K) :=
  (data.mapM (loadJsonObject mc)) >>= fun rows => pure (dictOf rows)

variable [Field K] [LinearOrder K]

/-- `MarkovChain.from_file` (`markov_chain.py:2429-2461`): nothing after the validation of the path is
inside a `try`. -/
def mcLoadFile (parse : String → Option K) (f : FileData K) : Except FileErr (MC K) :=
  match f with
  | .json o => loadJson true o >>= fun d => usually (chainOfDict d)
  | f => usually (mcFromFile parse f)

/-- `HiddenMarkovModel.from_file` (`hidden_markov_model.py:754-798`). -/
def hmmLoadFile (parse : String → Option K) (f : FileData K) : Except FileErr (HMM K) :=
  match f with
  | .json o => loadJson false o >>= fun d => usually (modelOfDict d)
  | f => usually (hmmFromFile parse f)

end Verif
