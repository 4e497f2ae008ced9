import Mathlib.Logic.Function.Basic
import Mathlib.Data.List.Basic

/-!
# Lazily computed properties

Models the descriptor `cached_property` (`decorators.py:26-84`) as read by several threads. Every property
has one reentrant lock, shared by all instances (`decorators.py:44`). A read enters the lock, looks for the
value in the dictionary of the instance, computes and stores it if it is missing, and leaves the lock
(`decorators.py:55-64`). The steps of different threads interleave in any way.
-/

namespace Verif

/-- What a computation does from here on: return a value, raise, or read a property of an object. The
continuation gets `none` if the read raises; a computation that does not catch the exception raises then.
Everything between two reads is invisible to other threads and belongs to one step. -/
inductive Body (O Q V : Type)
  | ret (v : V)
  | fail
  | read (o : O) (q : Q) (k : Option V → Body O Q V)

/-- Where a read of a property stands (`decorators.py:60-64`): it waits for the lock, looks into the
dictionary, computes the value, or leaves the lock with a value or with an exception. -/
inductive Phase (O Q V : Type)
  | enter
  | check
  | run (b : Body O Q V)
  | leave (r : Option V)

/-- A read of the property `prop` of the object `obj` in progress. -/
structure Frame (O Q V : Type) where
  obj : O
  prop : Q
  phase : Phase O Q V

/-- A thread: its reads in progress, the innermost first, and what its program does from here on. -/
structure Thread (O Q V : Type) where
  stack : List (Frame O Q V)
  client : Body O Q V

/-- What happened: a computation starts or raises, a read by a thread ends. -/
inductive Event (T O Q V : Type)
  | start (o : O) (q : Q)
  | fail (o : O) (q : Q)
  | result (t : T) (o : O) (q : Q) (r : Option V)
  deriving DecidableEq

/-- The state of the program: the owner of each lock with the number of times it entered, the
dictionaries of the instances, the threads and the history, the latest event first. -/
structure Shared (T O Q V : Type) where
  lock : Q → Option (T × ℕ)
  dict : O → Q → Option V
  threads : T → Thread O Q V
  log : List (Event T O Q V)

variable {T O Q V : Type} [DecidableEq T] [DecidableEq O] [DecidableEq Q]

/-- `RLock.acquire`: the owner may enter again, other threads wait. -/
def acquire (l : Option (T × ℕ)) (t : T) : Option (T × ℕ) :=
  match l with
  | none => some (t, 1)
  | some (u, n) => if u = t then some (u, n + 1) else none

/-- `RLock.release`. -/
def release (l : Option (T × ℕ)) : Option (T × ℕ) :=
  match l with
  | none => none
  | some (u, n) => if n ≤ 1 then none else some (u, n - 1)

/-- What remains of a computation after the read it waits for ended with `r`. -/
def Body.resume (r : Option V) : Body O Q V → Body O Q V
  | .read _ _ k => k r
  | b => b

/-- The same for a read in progress. -/
def Frame.resume (r : Option V) (f : Frame O Q V) : Frame O Q V :=
  match f.phase with
  | .run b => { f with phase := .run (b.resume r) }
  | _ => f

/-- The same for a thread. -/
def Thread.resume (r : Option V) (fs : List (Frame O Q V)) (client : Body O Q V) : Thread O Q V :=
  match fs with
  | [] => ⟨[], client.resume r⟩
  | f :: fs => ⟨f.resume r :: fs, client⟩

/-- The state after the thread `t` moved on. -/
def Shared.move (s : Shared T O Q V) (t : T) (th : Thread O Q V) : Shared T O Q V :=
  { s with threads := Function.update s.threads t th }

/-- `instance.__dict__.setdefault(name, value)`. -/
def setDefault (dict : O → Q → Option V) (o : O) (q : Q) (v : V) : O → Q → Option V :=
  fun o' q' => if o' = o ∧ q' = q then some ((dict o q).getD v) else dict o' q'

/-- One step of a read in progress (`decorators.py:60-64`), with the outer reads `fs`. The computation of
a property may depend on everything that happened so far. -/
def stepFrame (bodies : List (Event T O Q V) → O → Q → Body O Q V) (s : Shared T O Q V) (t : T)
    (f : Frame O Q V) (fs : List (Frame O Q V)) (client : Body O Q V) : Option (Shared T O Q V) :=
  match f.phase with
  | .enter =>
    match acquire (s.lock f.prop) t with
    | none => none
    | some l => some ({ s with lock := Function.update s.lock f.prop (some l) }.move t
        ⟨⟨f.obj, f.prop, .check⟩ :: fs, client⟩)
  | .check =>
    match s.dict f.obj f.prop with
    | some v => some (s.move t ⟨⟨f.obj, f.prop, .leave (some v)⟩ :: fs, client⟩)
    | none => some ({ s with log := .start f.obj f.prop :: s.log }.move t
        ⟨⟨f.obj, f.prop, .run (bodies s.log f.obj f.prop)⟩ :: fs, client⟩)
  | .run (.read o q _) => some (s.move t ⟨⟨o, q, .enter⟩ :: f :: fs, client⟩)
  | .run (.ret v) => some ({ s with dict := setDefault s.dict f.obj f.prop v }.move t
      ⟨⟨f.obj, f.prop, .leave (some ((s.dict f.obj f.prop).getD v))⟩ :: fs, client⟩)
  | .run .fail => some ({ s with log := .fail f.obj f.prop :: s.log }.move t
      ⟨⟨f.obj, f.prop, .leave none⟩ :: fs, client⟩)
  | .leave r => some ({ s with
      lock := Function.update s.lock f.prop (release (s.lock f.prop))
      log := .result t f.obj f.prop r :: s.log }.move t (Thread.resume r fs client))

/-- One step of the thread `t`; `none` if it is finished or waits for a lock. -/
def stepThread (bodies : List (Event T O Q V) → O → Q → Body O Q V) (s : Shared T O Q V) (t : T) :
    Option (Shared T O Q V) :=
  match (s.threads t).stack with
  | f :: fs => stepFrame bodies s t f fs (s.threads t).client
  | [] =>
    match (s.threads t).client with
    | .read o q _ => some (s.move t ⟨[⟨o, q, .enter⟩], (s.threads t).client⟩)
    | _ => none

/-- The state in which all threads begin their programs with fresh instances. -/
def Shared.initial (programs : T → Body O Q V) : Shared T O Q V :=
  ⟨fun _ => none, fun _ _ => none, fun t => ⟨[], programs t⟩, []⟩

/-- The states that some schedule reaches. -/
inductive Reachable (bodies : List (Event T O Q V) → O → Q → Body O Q V) (programs : T → Body O Q V) :
    Shared T O Q V → Prop
  | initial : Reachable bodies programs (.initial programs)
  | step {s s' : Shared T O Q V} (t : T) (h : Reachable bodies programs s)
      (hs : stepThread bodies s t = some s') : Reachable bodies programs s'

/-- The state after a schedule, that is, a list of threads that move in turn. -/
def runSchedule (bodies : List (Event T O Q V) → O → Q → Body O Q V) (s : Shared T O Q V) :
    List T → Option (Shared T O Q V)
  | [] => some s
  | t :: ts => (stepThread bodies s t).bind fun s' => runSchedule bodies s' ts

/-- The cached properties of the two classes with the cached properties that their computations read, each
listed after those it reads (`markov_chain.py:272-1002`, `hidden_markov_model.py:213-234`). The prefix `hmm.`
marks those of hidden Markov models; `hmm.is_ergodic` reads a property of a new Markov chain. -/
def cachedTable : List (String × List String) := [
  ("__absorbing_states_indices", []),
  ("__classes_indices", []),
  ("__communicating_classes_indices", ["__classes_indices"]),
  ("__eigenvalues_sorted", []),
  ("__rdl_decomposition", []),
  ("__states_indices", []),
  ("__transient_classes_indices", ["__classes_indices"]),
  ("__transient_states_indices", ["__transient_classes_indices"]),
  ("absorbing_states", ["__absorbing_states_indices"]),
  ("adjacency_matrix", []),
  ("communicating_classes", ["__communicating_classes_indices"]),
  ("communication_matrix", ["__communicating_classes_indices"]),
  ("density", ["adjacency_matrix"]),
  ("determinant", []),
  ("incidence_matrix", ["__states_indices"]),
  ("is_absorbing", ["__absorbing_states_indices", "__states_indices", "absorbing_states"]),
  ("is_doubly_stochastic", []),
  ("is_irreducible", ["communicating_classes"]),
  ("is_regular", []),
  ("is_stochastically_monotone", []),
  ("is_symmetric", []),
  ("lumping_partitions", []),
  ("periods", []),
  ("rank", []),
  ("topological_entropy", ["adjacency_matrix"]),
  ("transient_classes", ["__transient_classes_indices"]),
  ("transient_states", ["__transient_states_indices"]),
  ("hmm.is_regular", []),
  ("__recurrent_classes_indices", ["__classes_indices", "__transient_classes_indices"]),
  ("__recurrent_states_indices", ["__recurrent_classes_indices"]),
  ("accessibility_matrix", ["adjacency_matrix"]),
  ("fundamental_matrix", ["__transient_states_indices", "is_absorbing", "transient_states"]),
  ("is_aperiodic", ["is_irreducible", "periods"]),
  ("is_canonical", ["__recurrent_states_indices", "__transient_states_indices"]),
  ("is_ergodic", ["is_aperiodic", "is_irreducible"]),
  ("kemeny_constant", ["fundamental_matrix"]),
  ("recurrent_classes", ["__recurrent_classes_indices"]),
  ("recurrent_states", ["__recurrent_states_indices"]),
  ("hmm.is_ergodic", ["is_ergodic"]),
  ("__cyclic_classes_indices", ["__communicating_classes_indices", "is_aperiodic", "is_irreducible"]),
  ("__cyclic_states_indices", ["__cyclic_classes_indices"]),
  ("__slem", ["is_ergodic"]),
  ("cyclic_classes", ["__cyclic_classes_indices"]),
  ("cyclic_states", ["__cyclic_states_indices"]),
  ("implied_timescales", ["__eigenvalues_sorted", "is_ergodic"]),
  ("mixing_rate", ["__slem"]),
  ("period", ["communicating_classes", "is_aperiodic", "is_irreducible", "periods", "recurrent_classes"]),
  ("pi", ["__recurrent_classes_indices", "is_irreducible", "recurrent_classes"]),
  ("spectral_gap", ["__slem"]),
  ("entropy_rate", ["pi"]),
  ("entropy_rate_normalized", ["adjacency_matrix", "entropy_rate"]),
  ("is_reversible", ["pi"]),
  ("relaxation_rate", ["__slem", "spectral_gap"])]

end Verif
