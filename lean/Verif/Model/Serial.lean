import Verif.Model.Generators

/-!
# Dictionaries and files

Models `to_dictionary`, `from_dictionary`, `to_file` and `from_file` of both classes and
`/repo/pydtmc/files_io.py`.

A text file is its list of characters. The libraries `csv`, `json` and `xml` are not modelled: such a
file is represented by the rows, the objects or the elements that are written, and reading returns
them unchanged. The conversion of floats to strings and back is a parameter. File encodings and
failures of the operating system are not modelled.
-/

namespace Verif

open Finset

variable {K : Type}

/-! ## Dictionaries -/

/-- A dictionary whose keys are tuples of strings, in insertion order. -/
abbrev PyDict (K : Type) := List (List String × K)

/-- `d[k] = v`. -/
def dictSet (d : PyDict K) (k : List String) (v : K) : PyDict K :=
  if d.any (fun x => decide (x.1 = k)) then d.map fun x => if x.1 = k then (k, v) else x
  else d ++ [(k, v)]

/-- A dictionary filled item by item. -/
def dictOf (items : List (List String × K)) : PyDict K :=
  items.foldl (fun d x => dictSet d x.1 x.2) []

/-- The items of `MarkovChain.to_dictionary` (`markov_chain.py:1956`). -/
def mcItems (c : MC K) : List (List String × K) :=
  (List.finRange c.n).flatMap fun i => (List.finRange c.n).map fun j =>
    ([c.states.getD i.val "", c.states.getD j.val ""], c.p i j)

/-- `MarkovChain.to_dictionary` (`markov_chain.py:1950-1958`). -/
def mcToDictionary (c : MC K) : PyDict K := dictOf (mcItems c)

/-- The items of `HiddenMarkovModel.to_dictionary` (`hidden_markov_model.py:493-498`). -/
def hmmItems (m : HMM K) : List (List String × K) :=
  (List.finRange m.n).flatMap fun i =>
    ((List.finRange m.n).map fun j =>
      (["P", m.states.getD i.val "", m.states.getD j.val ""], m.p i j)) ++
    (List.finRange m.k).map fun j =>
      (["E", m.states.getD i.val "", m.symbols.getD j.val ""], m.e i j)

/-- `HiddenMarkovModel.to_dictionary` (`hidden_markov_model.py:483-500`). -/
def hmmToDictionary (m : HMM K) : PyDict K := dictOf (hmmItems m)

section
variable [Field K] [LinearOrder K]

/-- The dictionary as an argument: the values are floats. -/
def asArgument (d : PyDict K) : PyDict (PyVal K) := d.map fun x => (x.1, .float (.fin x.2))

/-- The value of an item: a finite number in the unit interval (`validation.py:222-227`). -/
def dictValue (v : PyVal K) : R K :=
  match v with
  | .int z => if (0 : K) ≤ z ∧ (z : K) ≤ 1 then pure (z : K) else throw .valueError
  | .float (.fin x) => if 0 ≤ x ∧ x ≤ 1 then pure x else throw .valueError
  | _ => throw .valueError

/-- `validate_dictionary` without attributes (`validation.py:170-229`). Keys that are not tuples of
strings are not represented. -/
def validateDictionary (d : PyDict (PyVal K)) : R (PyDict K) :=
  let labels := d.flatMap Prod.fst
  if d.isEmpty then throw .valueError
  else if ¬ d.all (fun x => x.1.length == 2 && x.1.all nonBlank) then throw .valueError
  else if ¬ labels.all (fun a => labels.all fun b => d.any fun x => decide (x.1 = [a, b])) then
    throw .valueError
  else if ¬ d.all (fun x => x.2.isNumber) then throw .valueError
  else d.mapM fun x => dictValue x.2 >>= fun v => pure (x.1, v)

/-- `validate_dictionary` with the attributes `['P', 'E']` (`validation.py:170-229`). -/
def validateDictionaryHmm (d : PyDict (PyVal K)) : R (PyDict K) :=
  let states := d.flatMap fun x =>
    match x.1 with
    | [r, a, b] => if r = "P" then [a, b] else [a]
    | _ => []
  let symbols := d.flatMap fun x =>
    match x.1 with
    | [r, _, b] => if r = "E" then [b] else []
    | _ => []
  if d.isEmpty then throw .valueError
  else if ¬ d.all (fun x => x.1.length == 3 && x.1.all nonBlank) then throw .valueError
  else if ¬ d.all (fun x => x.1.head? == some "P" || x.1.head? == some "E") then throw .valueError
  else if ¬ states.all (fun a => states.all fun b => d.any fun x => decide (x.1 = ["P", a, b])) then
    throw .valueError
  else if ¬ states.all (fun a => symbols.all fun b => d.any fun x => decide (x.1 = ["E", a, b])) then
    throw .valueError
  else if ¬ d.all (fun x => x.2.isNumber) then throw .valueError
  else d.mapM fun x => dictValue x.2 >>= fun v => pure (x.1, v)

/-- `states = [key[0] for key in d.keys() if key[0] == key[1]]` (`markov_chain.py:2368`, `:2445`;
`files_io.py:361`). -/
def dictStates (d : PyDict K) : List String :=
  d.filterMap fun x =>
    match x.1 with
    | [a, b] => if a = b then some a else none
    | _ => none

/-- The matrix after `M[rows.index(a), columns.index(b)] = v`. -/
def updateEntry (rows columns : List String) (M : Matrix (Fin rows.length) (Fin columns.length) K)
    (a b : String) (v : K) : Matrix (Fin rows.length) (Fin columns.length) K := fun i j =>
  if (i : ℕ) = rows.idxOf a ∧ (j : ℕ) = columns.idxOf b then v else M i j

/-- `M[rows.index(a), columns.index(b)] = v`; `list.index` raises a `ValueError` for a missing value. -/
def setEntry (rows columns : List String) (M : Matrix (Fin rows.length) (Fin columns.length) K)
    (a b : String) (v : K) : R (Matrix (Fin rows.length) (Fin columns.length) K) :=
  if a ∈ rows ∧ b ∈ columns then pure (updateEntry rows columns M a b v)
  else throw .valueError

/-- The loop over the items (`markov_chain.py:2376-2377`, `:2453-2454`; `files_io.py:366-367`). Unpacking
a key of another length raises a `ValueError`. -/
def dictMatrix (states : List String) (d : PyDict K) :
    R (Matrix (Fin states.length) (Fin states.length) K) :=
  d.foldlM (fun M x =>
    match x.1 with
    | [a, b] => setEntry states states M a b x.2
    | _ => throw .valueError) 0

/-- The test of the rows and the call of the constructor, which does not validate its arguments
because of the names of these functions (C02) (`markov_chain.py:2379-2384`, `:2456-2461`). -/
def finishChain (states : List String) (M : Matrix (Fin states.length) (Fin states.length) K) :
    R (MC K) :=
  if ¬ allcloseVec (fun i => ∑ j, M i j) (fun _ => 1) then throw .valueError
  else pure ⟨states.length, M, states⟩

/-- The common part of `MarkovChain.from_dictionary` and `MarkovChain.from_file`
(`markov_chain.py:2368-2384`, `:2445-2461`). -/
def chainOfDict (d : PyDict K) : R (MC K) :=
  if (dictStates d).length < 2 then throw .valueError
  else dictMatrix (dictStates d) d >>= fun M => finishChain (dictStates d) M

/-- `MarkovChain.from_dictionary` (`markov_chain.py:2351-2384`). -/
def fromDictionary (d : PyDict (PyVal K)) : R (MC K) :=
  validateDictionary d >>= fun d => chainOfDict d

/-- The states of a dictionary that represents a hidden Markov model (`hidden_markov_model.py:677`,
`:770`; `files_io.py:340`). -/
def dictHmmStates (d : PyDict K) : List String :=
  d.filterMap fun x =>
    match x.1 with
    | [r, a, b] => if r = "P" ∧ a = b then some a else none
    | _ => none

/-- The symbols of a dictionary that represents a hidden Markov model (`hidden_markov_model.py:683`,
`:776`; `files_io.py:341`). -/
def dictHmmSymbols (first : String) (d : PyDict K) : List String :=
  d.filterMap fun x =>
    match x.1 with
    | [r, a, b] => if r = "E" ∧ a = first then some b else none
    | _ => none

/-- The loop over the items (`hidden_markov_model.py:691-695`, `:784-788`; `files_io.py:345-349`). -/
def dictMatrices (states symbols : List String) (d : PyDict K) :
    R (Matrix (Fin states.length) (Fin states.length) K ×
      Matrix (Fin states.length) (Fin symbols.length) K) :=
  d.foldlM (fun M x =>
    match x.1 with
    | [r, a, b] =>
      if r = "E" then setEntry states symbols M.2 a b x.2 >>= fun E => pure (M.1, E)
      else setEntry states states M.1 a b x.2 >>= fun P => pure (P, M.2)
    | _ => throw .valueError) (0, 0)

/-- The common part of `HiddenMarkovModel.from_dictionary` and `HiddenMarkovModel.from_file`
(`hidden_markov_model.py:677-705`, `:770-798`). The constructor only checks that no label is both a
state and a symbol (`hidden_markov_model.py:164-165`). -/
def modelOfDict (d : PyDict K) : R (HMM K) :=
  let states := dictHmmStates d
  if states.length < 2 then throw .valueError
  else
    let symbols := dictHmmSymbols (states.headD "") d
    if symbols.length < 2 then throw .valueError
    else
      dictMatrices states symbols d >>= fun M =>
      if ¬ allcloseVec (fun i => ∑ j, M.1 i j) (fun _ => 1) then throw .valueError
      else if ¬ allcloseVec (fun i => ∑ j, M.2 i j) (fun _ => 1) then throw .valueError
      else if states.any (fun s => decide (s ∈ symbols)) then throw .valueError
      else pure ⟨states.length, symbols.length, M.1, M.2, states, symbols⟩

/-- `HiddenMarkovModel.from_dictionary` (`hidden_markov_model.py:660-705`). -/
def hmmFromDictionary (d : PyDict (PyVal K)) : R (HMM K) :=
  validateDictionaryHmm d >>= fun d => modelOfDict d

end

/-! ## Text files -/

/-- `write_txt` (`files_io.py:410-423`). -/
def writeTxt (fmt : K → String) (d : PyDict K) : List Char :=
  d.flatMap fun x => (x.1.flatMap fun a => a.toList ++ [' ']) ++ (fmt x.2).toList ++ ['\n']

/-- The pieces of a list between the elements that satisfy `sep`. -/
def pieces (sep : Char → Bool) : List Char → List (List Char)
  | [] => [[]]
  | c :: l =>
    if sep c then [] :: pieces sep l
    else match pieces sep l with
      | [] => [[c]]
      | w :: r => (c :: w) :: r

/-- Universal newlines: `\r\n` and `\r` are read as `\n`. -/
def universalNewlines : List Char → List Char
  | [] => []
  | '\r' :: '\n' :: l => '\n' :: universalNewlines l
  | '\r' :: l => '\n' :: universalNewlines l
  | c :: l => c :: universalNewlines l

/-- The lines of a file; the last line may not be terminated. -/
def fileLines (l : List Char) : List (List Char) :=
  let r := pieces (fun c => decide (c = '\n')) (universalNewlines l)
  if r.getLast? = some [] then r.dropLast else r

/-- `line.strip().split()`. -/
def words (l : List Char) : List String :=
  ((pieces pyIsSpace l).filter fun w => decide (w ≠ [])).map String.ofList

/-- One line of `read_txt` (`files_io.py:245-267`). -/
def readTxtRow (mc : Bool) (parse : String → Option K) (row : List String) : R (List String × K) :=
  if row.length ≠ (if mc then 3 else 4) then throw .valueError
  else if ¬ mc ∧ row.head? ≠ some "E" ∧ row.head? ≠ some "P" then throw .valueError
  else
    match parse (row.getLastD "") with
    | none => throw .valueError
    | some v => pure (row.dropLast, v)

/-- `read_txt` (`files_io.py:233-269`). -/
def readTxt (mc : Bool) (parse : String → Option K) (content : List Char) : R (PyDict K) :=
  ((fileLines content).mapM fun l => readTxtRow mc parse (words l)) >>= fun rows => pure (dictOf rows)

/-! ## Other files -/

/-- `write_json` (`files_io.py:389-407`): the objects. -/
def writeJson (mc : Bool) (d : PyDict K) : List (List (String × PyVal K)) :=
  d.map fun x =>
    ((if mc then ["state_from", "state_to"] else ["reference", "element_from", "element_to"]).zip
      (x.1.map PyVal.str)) ++ [("probability", .float (.fin x.2))]

/-- The string of a JSON or XML attribute: not empty (`files_io.py:219-220`). -/
def jsonString (v : Option (PyVal K)) : R String :=
  match v with
  | some (.str s) => if s.isEmpty then throw .valueError else pure s
  | _ => throw .valueError

/-- The number of a JSON object (`files_io.py:212-215`). Numbers that are not finite are not
represented. -/
def jsonNumber [Field K] (v : Option (PyVal K)) : R K :=
  match v with
  | some (.int z) => pure (z : K)
  | some (.bool b) => pure (if b then 1 else 0)
  | some (.float (.fin x)) => pure x
  | _ => throw .valueError

/-- The names of the attributes of a key (`files_io.py:48-59`). -/
def attributeNames (mc : Bool) : List String :=
  if mc then ["state_from", "state_to"] else ["reference", "element_from", "element_to"]

/-- The keys of an object are the expected ones: `sorted(keys) == sorted(expected)`
(`files_io.py:201`, `:306`). The keys of an object are distinct. -/
def sameKeys (mc : Bool) (keys : List String) : Bool :=
  decide (keys.length = (attributeNames mc).length + 1) &&
    (attributeNames mc ++ ["probability"]).all fun k => decide (k ∈ keys)

/-- One object of `read_json` (`files_io.py:196-227`). -/
def readJsonObject [Field K] (mc : Bool) (o : List (String × PyVal K)) : R (List String × K) :=
  if ¬ sameKeys mc (o.map Prod.fst) then throw .valueError
  else
    ((attributeNames mc).mapM fun k => jsonString (o.lookup k)) >>= fun key =>
    if ¬ mc ∧ key.head? ≠ some "E" ∧ key.head? ≠ some "P" then throw .valueError
    else jsonNumber (o.lookup "probability") >>= fun v => pure (key, v)

/-- `read_json` (`files_io.py:182-229`). -/
def readJson [Field K] (mc : Bool) (data : List (List (String × PyVal K))) : R (PyDict K) :=
  (data.mapM (readJsonObject mc)) >>= fun rows => pure (dictOf rows)

/-- `write_xml` (`files_io.py:426-454`): the attributes of the elements. The replacements in the text do
not affect attributes, in which the characters `<`, `>` and `"` are escaped. -/
def writeXml (mc : Bool) (fmt : K → String) (d : PyDict K) : List (List (String × String)) :=
  d.map fun x => ((attributeNames mc).zip x.1) ++ [("probability", fmt x.2)]

/-- `str.strip()`. -/
def pyStrip (s : String) : String :=
  String.ofList (((s.toList.dropWhile pyIsSpace).reverse.dropWhile pyIsSpace).reverse)

/-- One element of `read_xml` (`files_io.py:291-331`). -/
def readXmlElement (mc : Bool) (parse : String → Option K) (o : List (String × String)) :
    R (List String × K) :=
  if ¬ sameKeys mc (o.map Prod.fst) then throw .valueError
  else if o.any (fun x => (pyStrip x.2).isEmpty) then throw .valueError
  else
    let key := (attributeNames mc).map fun k => pyStrip ((o.lookup k).getD "")
    if ¬ mc ∧ key.head? ≠ some "E" ∧ key.head? ≠ some "P" then throw .valueError
    else
      match parse (pyStrip ((o.lookup "probability").getD "")) with
      | none => throw .valueError
      | some v => pure (key, v)

/-- `read_xml` (`files_io.py:273-333`). -/
def readXml (mc : Bool) (parse : String → Option K) (data : List (List (String × String))) :
    R (PyDict K) :=
  (data.mapM (readXmlElement mc parse)) >>= fun rows => pure (dictOf rows)

section
variable [Field K] [LinearOrder K]

/-- The header and the rows (`files_io.py:364-373`). -/
def csvMc (fmt : K → String) (states : List String) (d : PyDict K) : R (List (List String)) :=
  dictMatrix states d >>= fun M =>
  pure (states :: List.ofFn fun i => List.ofFn fun j => fmt (M i j))

/-- `_write_csv_mc` (`files_io.py:359-375`). -/
def writeCsvMc (fmt : K → String) (d : PyDict K) : R (List (List String)) :=
  csvMc fmt (dictStates d) d

/-- The data rows of `_read_csv_mc` (`files_io.py:151-167`). -/
def readCsvRow (parse : String → Option K) (width : ℕ) (row : List String) : R (List K) :=
  if row.length ≠ width ∨ row.any String.isEmpty then throw .valueError
  else row.mapM fun x =>
    match parse x with
    | none => throw .valueError
    | some v => pure v

/-- `_read_csv_mc` (`files_io.py:128-169`). -/
def readCsvMc (parse : String → Option K) (data : List (List String)) : R (PyDict K) :=
  match data with
  | [] => pure []
  | header :: rows =>
    if header.any String.isEmpty then throw .valueError
    else if ¬ header.Nodup then throw .valueError
    else if header.length ≠ rows.length then throw .valueError
    else
      (rows.mapM (readCsvRow parse header.length)) >>= fun M =>
      pure (dictOf ((header.zip M).flatMap fun x =>
        (header.zip x.2).map fun y => ([x.1, y.1], y.2)))

/-- The header and the rows (`files_io.py:343-355`). -/
def csvHmm (fmt : K → String) (states symbols : List String) (d : PyDict K) :
    R (List (List String)) :=
  dictMatrices states symbols d >>= fun M =>
  pure ((states.map ("P_" ++ ·) ++ symbols.map ("E_" ++ ·)) ::
    List.ofFn fun i => (List.ofFn fun j => fmt (M.1 i j)) ++ List.ofFn fun j => fmt (M.2 i j))

/-- `_write_csv_hmm` (`files_io.py:338-357`). -/
def writeCsvHmm (fmt : K → String) (d : PyDict K) : R (List (List String)) :=
  csvHmm fmt (dictHmmStates d) (dictHmmSymbols ((dictHmmStates d).headD "") d) d

/-- A label of the header (`files_io.py:79-96`): at least three characters, spaces at the ends removed
after this test, and a prefix. -/
def readCsvLabel (s : String) : R (String × String) :=
  if s.toList.length < 3 then throw .valueError
  else
    let t := (pyStrip s).toList
    let prefix' := String.ofList (t.take 2)
    if prefix' = "E_" then pure ("E", String.ofList (t.drop 2))
    else if prefix' = "P_" then pure ("P", String.ofList (t.drop 2))
    else throw .valueError

/-- `_read_csv_hmm` (`files_io.py:68-126`). -/
def readCsvHmm (parse : String → Option K) (data : List (List String)) : R (PyDict K) :=
  match data with
  | [] => pure []
  | header :: rows =>
    (header.mapM readCsvLabel) >>= fun labels =>
    let states := (labels.filter fun x => x.1 = "P").map Prod.snd
    let symbols := (labels.filter fun x => x.1 = "E").map Prod.snd
    if ¬ states.Nodup ∨ ¬ symbols.Nodup then throw .valueError
    else if states.length ≠ rows.length then throw .valueError
    else
      (rows.mapM (readCsvRow parse (states.length + symbols.length))) >>= fun M =>
      pure (dictOf ((states.zip M).flatMap fun x =>
        (labels.zip x.2).map fun y => ([y.1.1, x.1, y.1.2], y.2)))

/-- The contents of a file. -/
inductive FileData (K : Type)
  | txt (l : List Char)
  | csv (rows : List (List String))
  | json (objects : List (List (String × PyVal K)))
  | xml (elements : List (List (String × String)))

/-- `MarkovChain.to_file` (`markov_chain.py:1960-1988`), for each of the accepted extensions. -/
def mcToFile (fmt : K → String) (ext : String) (c : MC K) : R (FileData K) :=
  let d := mcToDictionary c
  if ext = ".csv" then writeCsvMc fmt d >>= fun r => pure (.csv r)
  else if ext = ".json" then pure (.json (writeJson true d))
  else if ext = ".txt" then pure (.txt (writeTxt fmt d))
  else if ext = ".xml" then pure (.xml (writeXml true fmt d))
  else throw .valueError

/-- `MarkovChain.from_file` (`markov_chain.py:2388-2461`). The extension determines the format, so that
a file is read in the format in which it was written. An empty file is rejected
(`validation.py:321-328`). -/
def mcFromFile (parse : String → Option K) (f : FileData K) : R (MC K) :=
  match f with
  | .txt l =>
    if l.isEmpty then throw .valueError else readTxt true parse l >>= fun d => chainOfDict d
  | .csv r => readCsvMc parse r >>= fun d => chainOfDict d
  | .json o => readJson true o >>= fun d => chainOfDict d
  | .xml e => readXml true parse e >>= fun d => chainOfDict d

/-- `HiddenMarkovModel.to_file` (`hidden_markov_model.py:502-530`). -/
def hmmToFile (fmt : K → String) (ext : String) (m : HMM K) : R (FileData K) :=
  let d := hmmToDictionary m
  if ext = ".csv" then writeCsvHmm fmt d >>= fun r => pure (.csv r)
  else if ext = ".json" then pure (.json (writeJson false d))
  else if ext = ".txt" then pure (.txt (writeTxt fmt d))
  else if ext = ".xml" then pure (.xml (writeXml false fmt d))
  else throw .valueError

/-- `HiddenMarkovModel.from_file` (`hidden_markov_model.py:710-798`). -/
def hmmFromFile (parse : String → Option K) (f : FileData K) : R (HMM K) :=
  match f with
  | .txt l =>
    if l.isEmpty then throw .valueError else readTxt false parse l >>= fun d => modelOfDict d
  | .csv r => readCsvHmm parse r >>= fun d => modelOfDict d
  | .json o => readJson false o >>= fun d => modelOfDict d
  | .xml e => readXml false parse e >>= fun d => modelOfDict d

end

end Verif
