import Verif.Model.Structure
import Mathlib.Data.Int.GCD

/-!
# Periods and cyclic classes

Models `_calculate_period`, `calculate_periods` and `find_cyclic_classes`
(`/repo/pydtmc/computations.py`) and the properties of `MarkovChain` built on them.

What networkx returns is a parameter, collected in the structure `Nx`.
-/

namespace Verif

variable {K : Type} [Field K] [LinearOrder K]

/-- The results of networkx on the graph of a chain, with the labels replaced by their indices. -/
structure Nx (n : ℕ) where
  /-- `strongly_connected_components(graph)` -/
  sccs : List (List (Fin n))
  /-- `strongly_connected_components(graph.subgraph(C))` -/
  inner : List (Fin n) → List (List (Fin n))
  /-- the successors of a vertex in `graph.subgraph(C)`, in the order of iteration -/
  nbrs : List (Fin n) → Fin n → List (Fin n)
  /-- the keys of `shortest_path_length(graph, i)` -/
  reach : Fin n → List (Fin n)
  /-- `is_aperiodic(graph)` -/
  aperiodic : Bool

/-! ## `_calculate_period` -/

/-- The variables of the loop: `levels`, `next_level` and `g`. -/
structure LevelState (n : ℕ) where
  levels : Fin n → Option ℕ
  next : List (Fin n)
  g : ℕ

/-- The body of the inner loop (`computations.py:76-91`). The early `return 1` when `g` is one is
left out: `gcd(1, x)` is one, so the loop would end with the same value. -/
def visitLevel {n : ℕ} (C : List (Fin n)) (previous : ℕ) (st : LevelState n) (v : Fin n) :
    LevelState n :=
  if v ∈ C then
    match st.levels v with
    | some l => { st with g := Int.gcd st.g ((previous : ℤ) - (l : ℤ)) }
    | none => { st with next := st.next ++ [v], levels := Function.update st.levels v (some previous) }
  else st

/-- One pass of the `while` loop (`computations.py:71-91`). -/
def levelPass {n : ℕ} (nbrs : Fin n → List (Fin n)) (C : List (Fin n)) (current : List (Fin n))
    (previous : ℕ) (st : LevelState n) : LevelState n :=
  current.foldl (fun st u => (nbrs u).foldl (visitLevel C previous) st) st

/-- The `while` loop (`computations.py:69-94`); `fuel` bounds the number of passes, every pass but
the last one reaches a new vertex. -/
def levelLoop {n : ℕ} (nbrs : Fin n → List (Fin n)) (C : List (Fin n)) :
    ℕ → List (Fin n) → ℕ → (Fin n → Option ℕ) → ℕ → ℕ
  | 0, _, _, _, g => g
  | fuel + 1, current, previous, levels, g =>
    if current = [] then g
    else
      let st := levelPass nbrs C current previous ⟨levels, [], g⟩
      levelLoop nbrs C fuel st.next (previous + 1) st.levels st.g

/-- The body of the loop over the components (`computations.py:58-94`): `g` after component `C`. -/
def componentPeriod {n : ℕ} (nbrs : Fin n → List (Fin n)) (g : ℕ) (C : List (Fin n)) : ℕ :=
  match C with
  | [] => g
  | x :: _ => levelLoop nbrs C (n + 1) [x] 1 (Function.update (fun _ => none) x (some 0)) g

/-- `_calculate_period` (`computations.py:50-96`). -/
def calculatePeriod {n : ℕ} (nbrs : Fin n → List (Fin n)) (comps : List (List (Fin n))) : ℕ :=
  comps.foldl (componentPeriod nbrs) 0

/-! ## `calculate_periods` -/

/-- `sorted(scc)` (`computations.py:103`): by label. -/
def sortByLabel (c : MC K) (C : List (Fin c.n)) : List (Fin c.n) :=
  C.insertionSort fun a b => c.label a ≤ c.label b

/-- The first label of a sorted class. -/
def firstLabel (c : MC K) (C : List (Fin c.n)) : String := (C.head?.map c.label).getD ""

/-- Comparison with the key `(-len(x), x[0])` on lists of labels (`computations.py:104`). -/
def labelClassLe (c : MC K) (a b : List (Fin c.n)) : Bool :=
  a.length > b.length || (a.length == b.length && decide (firstLabel c a ≤ firstLabel c b))

/-- `indices` (`computations.py:101-104`). -/
def periodOrder (c : MC K) (sccs : List (List (Fin c.n))) : List (List (Fin c.n)) :=
  (sccs.map (sortByLabel c)).insertionSort fun a b => labelClassLe c a b = true

/-- `scc_reachable - scc` is empty (`computations.py:110-118`). -/
def staysInside {n : ℕ} (nx : Nx n) (C : List (Fin n)) : Bool :=
  decide (∀ i ∈ C, ∀ j ∈ nx.reach i, j ∈ C)

/-- The period that the loop assigns to a class (`computations.py:118-121`). -/
def classPeriod {n : ℕ} (nx : Nx n) (C : List (Fin n)) : ℕ :=
  if staysInside nx C then calculatePeriod (nx.nbrs C) (nx.inner C) else 1

/-- `calculate_periods` (`computations.py:99-123`), `periods` (`markov_chain.py:855-864`). The loop
over the components assigns every position of `periods` once. -/
def periods (c : MC K) (nx : Nx c.n) : List ℕ :=
  (periodOrder c nx.sccs).map (classPeriod nx)

/-- `is_aperiodic` (`markov_chain.py:633-647`). -/
def isAperiodic (c : MC K) (nx : Nx c.n) : Bool :=
  if isIrreducible c nx.sccs then (periods c nx).head? = some 1
  else if (periods c nx).all (· = 1) then true
  else nx.aperiodic

/-- The loop of `period` (`markov_chain.py:848-851`): least common multiple of the entries of
`periods` at the positions of the recurrent classes in `communicating_classes`. Labels are
replaced by indices. -/
def periodReducible (c : MC K) (sccs : List (List (Fin c.n))) (ps : List ℕ) : ℕ :=
  (recurrentIdx c.p sccs).foldl (fun acc C =>
    let q := ps.getD ((communicatingIdx sccs).idxOf C) 0
    acc * q / Nat.gcd acc q) 1

/-- `period` (`markov_chain.py:835-853`). -/
def period (c : MC K) (nx : Nx c.n) : ℕ :=
  if isAperiodic c nx then 1
  else if isIrreducible c nx.sccs then (periods c nx).headD 0
  else periodReducible c nx.sccs (periods c nx)

/-! ## `find_cyclic_classes` -/

/-- The variables of the loop: `v`, `w`, `t` and `d`. -/
structure CyclicState (n : ℕ) where
  v : Fin n → ℕ
  w : List (Fin n)
  t : List (Fin n)
  d : ℕ

/-- The body of the inner loop (`computations.py:190-200`). -/
def cyclicVisit {n : ℕ} (P : Matrix (Fin n) (Fin n) K) (i : Fin n) (vip : ℕ) (st : CyclicState n)
    (j : Fin n) : CyclicState n :=
  if hasEdge P i j then
    if j ∈ st.w ++ st.t then { st with d := Int.gcd st.d ((vip : ℤ) - (st.v j : ℤ)) }
    else { st with t := st.t ++ [j], v := Function.update st.v j vip }
  else st

/-- The outer loop (`computations.py:179-204`); every pass takes a state from the queue and every
state enters it once, so `fuel` bounds the number of passes. -/
def cyclicLoop {n : ℕ} (P : Matrix (Fin n) (Fin n) K) : ℕ → CyclicState n → CyclicState n
  | 0, st => st
  | fuel + 1, st =>
    match st.t with
    | [] => st
    | i :: t =>
      if st.d = 1 then st
      else cyclicLoop P fuel
        ((List.finRange n).foldl (cyclicVisit P i (st.v i + 1)) ⟨st.v, st.w ++ [i], t, st.d⟩)

/-- The start (`computations.py:168-177`). -/
def cyclicStart {n : ℕ} (h : 0 < n) : CyclicState n :=
  ⟨fun i => if i = ⟨0, h⟩ then 1 else 0, [], [⟨0, h⟩], 0⟩

/-- `find_cyclic_classes` (`computations.py:166-210`): the classes of equal remainder, by
increasing remainder. Python's remainder by zero does not occur on the chains it is called on. -/
def findCyclicClasses {n : ℕ} (P : Matrix (Fin n) (Fin n) K) : List (List (Fin n)) :=
  if h : 0 < n then
    let st := cyclicLoop P (n + 1) (cyclicStart h)
    ((List.range st.d).map fun u => (List.finRange n).filter fun i => st.v i % st.d = u).filter
      (· ≠ [])
  else []

/-- `__cyclic_classes_indices` (`markov_chain.py:293-304`). -/
def cyclicIdx (c : MC K) (nx : Nx c.n) : List (List (Fin c.n)) :=
  if ¬ isIrreducible c nx.sccs then []
  else if isAperiodic c nx then communicatingIdx nx.sccs
  else sortClasses (findCyclicClasses c.p)

/-- `cyclic_classes` (`markov_chain.py:438-447`). -/
def cyclicClasses (c : MC K) (nx : Nx c.n) : List (List String) :=
  (cyclicIdx c nx).map fun C => C.map c.label

end Verif
