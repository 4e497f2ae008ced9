import Verif.Model.Validation2

/-!
# File paths

Models `get_file_extension` (`/repo/pydtmc/utilities.py:234-241`) and `validate_file_path`
(`/repo/pydtmc/validation.py:279-330`). Paths are POSIX paths given as strings, their parts follow the
rules of `pathlib`; letters are changed to lower case for the basic Latin alphabet only.
-/

namespace Verif

variable {K : Type} [Field K] [LinearOrder K]

/-- The parts of a path: empty parts and the part `.` are left out (`pathlib`). -/
def pathParts (s : List Char) : List (List Char) :=
  (s.splitOn '/').filter fun x => !decide (x = [] ∨ x = ['.'])

/-- `Path.name`: the last part. -/
def pathName (s : List Char) : List Char := (pathParts s).getLastD []

/-- `Path.suffixes`: nothing if the name ends with a dot; otherwise the pieces after the first one when
the name, without its leading dots, is split at the dots. -/
def nameSuffixes (name : List Char) : List (List Char) :=
  if name.getLast? = some '.' then []
  else (((name.dropWhile (· = '.')).splitOn '.').drop 1).map ('.' :: ·)

/-- `get_file_extension` (`utilities.py:234-241`). -/
def fileExtension (s : List Char) : List Char :=
  ((nameSuffixes (pathName s)).flatten).map Char.toLower

/-- The extensions accepted by `to_file` and `from_file` (`markov_chain.py:1974`, `:2431`,
`hidden_markov_model.py:516`, `:756`). -/
def acceptedExtensions : List (List Char) := [".csv".toList, ".json".toList, ".xml".toList, ".txt".toList]

/-- The part of the file system that is used: the directories, the texts of the files that can be read,
and the paths that can be opened for writing. -/
structure FileSystem where
  isDir : List Char → Prop
  text : List Char → Option (List Char)
  isFile : List Char → Prop
  canWrite : List Char → Prop

/-- `os.path.dirname`: what precedes the last slash, without trailing slashes, unless there are only
slashes. -/
def pathDirectory (s : List Char) : List Char :=
  if (s.reverse.dropWhile (· ≠ '/')).all (· = '/') then (s.reverse.dropWhile (· ≠ '/')).reverse
  else ((s.reverse.dropWhile (· ≠ '/')).dropWhile (· = '/')).reverse

open Classical in
/-- The file system after a file was opened for writing and closed again (`validation.py:303-304`). -/
noncomputable def FileSystem.emptied (fs : FileSystem) (s : List Char) : FileSystem :=
  { fs with
    text := fun t => if t = s then some [] else fs.text t
    isFile := fun t => t = s ∨ fs.isFile t }

open Classical in
/-- The checks of a path to be written (`validation.py:296-307`): the result and the file system
afterwards. -/
noncomputable def checkWrite (fs : FileSystem) (s : List Char) : R (List Char) × FileSystem :=
  if ¬ fs.isDir (pathDirectory s) ∧ s.head? = some '/' then (throw .valueError, fs)
  else if ¬ fs.canWrite s then (throw .valueError, fs)
  else (pure (fileExtension s), fs.emptied s)

open Classical in
/-- The checks of a path to be read (`validation.py:309-328`). -/
noncomputable def checkRead (fs : FileSystem) (s : List Char) : R (List Char) :=
  if ¬ fs.isFile s then throw .valueError
  else match fs.text s with
    | none => throw .valueError
    | some [] => throw .valueError
    | some _ => pure (fileExtension s)

/-- `validate_file_path` (`validation.py:279-330`) with the accepted extensions: the extension and the
file system afterwards. Path objects are not represented. -/
noncomputable def validateFilePath (fs : FileSystem) (v : PyVal K) (write : Bool) :
    R (List Char) × FileSystem :=
  match v with
  | .str s =>
    if nonBlank s = false then (throw .typeError, fs)
    else if fileExtension s.toList ∉ acceptedExtensions then (throw .valueError, fs)
    else if write then checkWrite fs s.toList
    else (checkRead fs s.toList, fs)
  | _ => (throw .typeError, fs)

end Verif
