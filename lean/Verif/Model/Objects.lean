import Verif.Model.Construct
import Verif.Model.Cached

/-!
# Objects: attributes, aliases, equality, hashes and shared values
-/

namespace Verif

/-! ## Attributes -/

/-- What a class says about a name: a cached property, a property without a setter, or nothing. -/
inductive Descriptor
  | cached
  | plain
  | absent
  deriving DecidableEq

/-- What can be done to an attribute of an instance. -/
inductive AttrOp (V : Type)
  | get (name : String)
  | set (name : String) (v : V)
  | delete (name : String)

/-- What comes out of it: a value, nothing, or an `AttributeError`. -/
inductive AttrOutcome (V : Type)
  | value (v : V)
  | done
  | error
  deriving DecidableEq

/-- The dictionary of an instance with a value at one name replaced. -/
def dictPut {V : Type} (d : String → Option V) (name : String) (v : Option V) : String → Option V :=
  fun x => if x = name then v else d x

/-- Attribute access of one thread (`decorators.py:55-72`; `property` and `object.__getattribute__` of
Python). Both kinds of properties are data descriptors, so the class decides before the dictionary of the
instance does. A cached property is stored in the same dictionary as ordinary attributes; `compute` is the
function that it wraps, which may raise. -/
def attrStep {V : Type} (kind : String → Descriptor) (compute : String → Option V)
    (d : String → Option V) : AttrOp V → AttrOutcome V × (String → Option V)
  | .get name =>
    match kind name with
    | .cached =>
      match d name with
      | some v => (.value v, d)
      | none =>
        match compute name with
        | some v => (.value v, dictPut d name (some v))
        | none => (.error, d)
    | .plain =>
      match compute name with
      | some v => (.value v, d)
      | none => (.error, d)
    | .absent =>
      match d name with
      | some v => (.value v, d)
      | none => (.error, d)
  | .set name v =>
    match kind name with
    | .absent => (.done, dictPut d name (some v))
    | _ => (.error, d)
  | .delete name =>
    match kind name with
    | .absent =>
      match d name with
      | some _ => (.done, dictPut d name none)
      | none => (.error, d)
    | _ => (.error, d)

/-- A history of attribute accesses with what came out of them. -/
def attrRun {V : Type} (kind : String → Descriptor) (compute : String → Option V) :
    (String → Option V) → List (AttrOp V) → List (AttrOp V × AttrOutcome V)
  | _, [] => []
  | d, op :: ops => (op, (attrStep kind compute d op).1) :: attrRun kind compute (attrStep kind compute d op).2 ops

/-! ## Aliases -/

/-- What a member of a class is. -/
inductive MemberKind
  | method
  | property
  | cachedProperty
  deriving DecidableEq

/-- A member of a class: its kind, the function behind it and its declared aliases, as marked by
`object_mark` (`decorators.py:87-122`). -/
structure Member (F : Type) where
  kind : MemberKind
  func : F
  aliases : Option (List String) := none

/-- Whether the name matches `^[a-z][\da-z]*(?:_[\da-z]+)*$` (`decorators.py:168`), on the characters after
a first letter; `fresh` tells that an underscore came last. -/
def aliasTail (fresh : Bool) : List Char → Bool
  | [] => !fresh
  | c :: cs =>
    if c.isDigit || c.isLower then aliasTail false cs
    else if c = '_' then !fresh && aliasTail true cs
    else false

/-- The whole pattern; `$` also matches before a line feed at the end. Only ASCII digits are modelled. -/
def aliasName (a : String) : Bool :=
  match (if a.toList.getLast? = some '\n' then a.toList.dropLast else a.toList) with
  | [] => false
  | c :: cs => c.isLower && aliasTail false cs

/-- The aliases of all members in order (`decorators.py:163`). -/
def flatAliases {F : Type} (members : List (String × Member F)) : List String :=
  members.flatMap fun m => m.2.aliases.getD []

/-- The member behind an alias (`decorators.py:176-180`): a property, cached or not, becomes a plain
property with the same function, a method a wrapper that calls it. -/
def aliasMember {F : Type} (m : Member F) : Member F :=
  ⟨if m.kind = .method then .method else .property, m.func, none⟩

/-- `aliased` (`decorators.py:130-185`): the members of the class itself, those of its bases are not
looked at. Members are taken to be different objects. -/
def aliased {F : Type} (members : List (String × Member F)) : R (List (String × Member F)) :=
  if ¬ (flatAliases members).Nodup then throw .valueError
  else if ¬ (flatAliases members).all aliasName then throw .valueError
  else if (flatAliases members).any (fun a => decide (a ∈ members.map Prod.fst)) then throw .valueError
  else pure (members ++ members.flatMap fun m => (m.2.aliases.getD []).map fun a => (a, aliasMember m.2))

/-- Attribute lookup in a class with a base class. -/
def classLookup {F : Type} (members base : List (String × Member F)) (name : String) : Option (Member F) :=
  match members.lookup name with
  | some m => some m
  | none => base.lookup name

/-- The value of a property read by one thread, given what the dictionary of the instance stores under the
name of the property, and whether the function behind it is called. -/
def readMember {V : Type} (m : Member V) (stored : Option V) : V × Bool :=
  match m.kind, stored with
  | .cachedProperty, some v => (v, false)
  | _, _ => (m.func, true)

/-! ## Equality and hash -/

/-- A finite floating point number: its value, and the sign of a zero. -/
structure SignedNum (K : Type) where
  value : K
  negZero : Bool := false
  deriving DecidableEq

/-- The bit pattern: the sign of zero counts only for zeros. Only what distinguishes the patterns of
finite numbers is kept. -/
def SignedNum.bits {K : Type} [Zero K] [DecidableEq K] (x : SignedNum K) : K × Bool :=
  (x.value, decide (x.value = 0) && x.negZero)

/-- `__eq__` of both classes (`markov_chain.py:233-238`, `hidden_markov_model.py:174-179`) on the rows of
the matrices and the lists of labels. Numbers are compared by value. -/
def modelEq {K : Type} [DecidableEq K] (a b : List (List (List (SignedNum K))) × List (List String)) : Bool :=
  decide (a.1.map (List.map (List.map SignedNum.value)) = b.1.map (List.map (List.map SignedNum.value))) &&
    decide (a.2 = b.2)

/-- `__hash__` of both classes (`markov_chain.py:240-242`, `hidden_markov_model.py:181-183`): a hash of the
bytes of the matrices and of the labels. The hash of tuples of Python is the parameter `h`. -/
def modelHash {K H : Type} [Zero K] [DecidableEq K]
    (h : List (List (K × Bool)) × List (List String) → H)
    (a : List (List (List (SignedNum K))) × List (List String)) : H :=
  h (a.1.map fun m => m.flatten.map SignedNum.bits, a.2)

/-! ## Shared values -/

/-- A mutable object: a list of labels or an array. -/
inductive Obj (K : Type)
  | labels (l : List String)
  | array (rows : List (List K))
  deriving DecidableEq

/-- What a caller gets: an object, or a view of a row of an array. -/
inductive Handle
  | whole (r : ℕ)
  | row (r : ℕ) (i : ℕ)
  deriving DecidableEq

/-- A chain with all objects of the program, and the handles given to callers with a mark for copies. -/
structure World (K : Type) where
  heap : List (Obj K)
  states : ℕ
  p : ℕ
  cache : List (String × ℕ)
  client : List (Handle × Bool)

/-- Reads of a chain: `p` and `to_matrix` (`markov_chain.py:827-833`, `:2026-2034`) copy the array; `states`
(`markov_chain.py:962-968`) gives the list itself; `conditional_probabilities` (`markov_chain.py:1175-1197`)
gives a view of a row; a cached property gives the stored object. -/
inductive ApiRead
  | matrix
  | states
  | conditional (i : ℕ)
  | property (name : String)

/-- The object at a reference. -/
def World.object {K : Type} (w : World K) (r : ℕ) : Obj K := w.heap.getD r (.labels [])

/-- A read, where `compute` gives the object that a cached property computes from the labels and the
transition matrix. -/
def World.read {K : Type} (compute : String → Obj K → Obj K → Obj K) (w : World K) : ApiRead → World K × Handle
  | .matrix => ({ w with
      heap := w.heap ++ [w.object w.p]
      client := w.client ++ [(.whole w.heap.length, true)] }, .whole w.heap.length)
  | .states => ({ w with client := w.client ++ [(.whole w.states, false)] }, .whole w.states)
  | .conditional i => ({ w with client := w.client ++ [(.row w.p i, false)] }, .row w.p i)
  | .property name =>
    match w.cache.lookup name with
    | some r => ({ w with client := w.client ++ [(.whole r, false)] }, .whole r)
    | none => ({ w with
        heap := w.heap ++ [compute name (w.object w.states) (w.object w.p)]
        cache := (name, w.heap.length) :: w.cache
        client := w.client ++ [(.whole w.heap.length, false)] }, .whole w.heap.length)

/-- What a handle shows. -/
def World.content {K : Type} (w : World K) : Handle → Obj K
  | .whole r => w.object r
  | .row r i =>
    match w.object r with
    | .array rows => .array [rows.getD i []]
    | o => o

/-- Writing through a handle: the object, or the row, gets any new content. -/
def World.write {K : Type} (w : World K) (x : Handle) (o : Obj K) : World K :=
  match x with
  | .whole r => { w with heap := w.heap.set r o }
  | .row r i =>
    match w.object r, o with
    | .array rows, .array [row] => { w with heap := w.heap.set r (.array (rows.set i row)) }
    | _, _ => w

/-- What a program does with a chain: it reads, or it writes through the handle it got at a read. -/
inductive UseOp (K : Type)
  | read (a : ApiRead)
  | write (k : ℕ) (o : Obj K)

/-- One operation. -/
def World.use {K : Type} (compute : String → Obj K → Obj K → Obj K) (w : World K) : UseOp K → World K
  | .read a => (w.read compute a).1
  | .write k o =>
    match w.client[k]? with
    | some x => w.write x.1 o
    | none => w

/-- What a read reports in a state. -/
def World.report {K : Type} (compute : String → Obj K → Obj K → Obj K) (w : World K) (a : ApiRead) : Obj K :=
  (w.read compute a).1.content (w.read compute a).2

/-- A new chain (`markov_chain.py:210-231`) from a list of labels of the caller and a matrix: the list is
kept as it is (`validation.py:592-613`), the matrix is copied (`utilities.py:205-224`). The caller keeps
the list. -/
def World.create {K : Type} (labels : List String) (rows : List (List K)) : World K :=
  ⟨[.labels labels, .array rows], 0, 1, [], [(.whole 0, false)]⟩

/-! ## Results stored by methods -/

/-- Where a call of a method that stores its result stands (`markov_chain.py:1014-1017`): it looks for the
result, computes it, stores it, or loads it. -/
inductive MemoPhase (V : Type)
  | look
  | compute
  | store (v : V)
  | load
  | returned (v : V)
  deriving DecidableEq

/-- The stored result, the calls in progress and the number of computations so far. -/
structure Memo (T V : Type) where
  stored : Option V
  phase : T → MemoPhase V
  runs : ℕ

/-- One step of a call; `value k` is what the computation number `k` gives. -/
def memoStep {T V : Type} [DecidableEq T] (value : ℕ → V) (m : Memo T V) (t : T) : Option (Memo T V) :=
  match m.phase t with
  | .look => some { m with
      phase := Function.update m.phase t (if m.stored.isSome then .load else .compute) }
  | .compute => some { m with
      phase := Function.update m.phase t (.store (value m.runs)), runs := m.runs + 1 }
  | .store v => some { m with stored := some v, phase := Function.update m.phase t .load }
  | .load =>
    match m.stored with
    | some v => some { m with phase := Function.update m.phase t (.returned v) }
    | none => none
  | .returned _ => none

/-- A schedule of calls. -/
def memoRun {T V : Type} [DecidableEq T] (value : ℕ → V) : Memo T V → List T → Option (Memo T V)
  | m, [] => some m
  | m, t :: ts => (memoStep value m t).bind fun m' => memoRun value m' ts

end Verif
