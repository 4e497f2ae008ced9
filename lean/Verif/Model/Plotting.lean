import Verif.Model.Hidden
import Verif.Model.Structure
import Verif.Model.Spectral
import Mathlib.Analysis.SpecialFunctions.Log.Base
import Mathlib.Data.Int.Log

/-!
# The data shown by the plots

Models the computations of `/repo/pydtmc/plotting.py`: which numbers, positions, edges, labels and
colours are handed to the plotting library. Fonts, titles, legends and the drawing itself are not
modelled, nor is the argument `dpi`.
-/

namespace Verif

variable {K : Type} [Field K] [LinearOrder K]

/-! ## Flow plot -/

/-- `list(range(0, (steps * interval) + 1, interval))` (`plotting.py:481`). -/
def flowIndices (steps interval : ℕ) : List ℕ := (List.range (steps + 1)).map (· * interval)

/-- The columns of `distributions` (`plotting.py:464-467`, `:482-483`). The status is validated twice
in the source; the second validation leaves the vector of the first one as it is. -/
def flowColumns (c : MC K) (steps interval status : PyVal K) : R (List (Fin c.n → K)) :=
  validateInteger steps (some (1, false)) none >>= fun s =>
  validateInteger interval (some (1, false)) none >>= fun t =>
  redistribute c (.int ((flowIndices s.toNat t.toNat).getLastD 0)) status (.bool false) >>= fun ds =>
  pure ((ds.zipIdx.filter fun x => decide (x.2 ∈ flowIndices s.toNat t.toNat)).map Prod.fst)

/-- `np.clip(x, 0.0, 1.0)`. -/
def clip (x : K) : K := max 0 (min x 1)

/-- `np.cumsum(d + k)` (`plotting.py:357`). -/
def cumAfter {n : ℕ} (d : Fin n → K) (k : K) (i : Fin n) : K := ∑ l with l ≤ i, (d l + k)

/-- `k` (`plotting.py:350`): the gap between two bars. -/
def barGap (K : Type) [Field K] (n : ℕ) : K := 1 / 10 / ((n : K) - 1)

/-- An entry of `b` (`plotting.py:357`, `:360`) for the column `x` of `distributions`; `d` is
`distributions * 0.9` (`plotting.py:485`). -/
def barBottom {n : ℕ} (x : Fin n → K) (i : Fin n) : K :=
  let d := fun l => x l * (9 / 10)
  clip (cumAfter d (barGap K n) i - d i - barGap K n)

/-- An entry of `t` (`plotting.py:358`, `:361`). -/
def barTop {n : ℕ} (x : Fin n → K) (i : Fin n) : K :=
  let d := fun l => x l * (9 / 10)
  clip (cumAfter d (barGap K n) i - barGap K n)

/-- `w` (`plotting.py:401`, `:425`): half the width of a bar, for `j` columns. -/
def barHalf (K : Type) [Field K] (j : ℕ) : K := (j : K) / 40

/-- The horizontal limits set by `_xticks_steps(ax, steps)` (`plotting.py:150`, `:510`). -/
def flowLimits (steps : ℕ) : K × K := (-(1 / 2), (steps : K) - 1 / 2)

/-- The vertical ends of the band between the state `i` of a column and the state `j` of the next. -/
structure Band (K : Type) where
  leftLow : K
  leftHigh : K
  rightLow : K
  rightHigh : K

/-- `np.cumsum(q[i, :])` (`plotting.py:443`). -/
def rowCum {n : ℕ} (q : Matrix (Fin n) (Fin n) K) (i j : Fin n) : K := ∑ l with l ≤ j, q i l

/-- The values of `tl` (`plotting.py:445`) for the column `x`. -/
def bandLeftLow {n : ℕ} (q : Matrix (Fin n) (Fin n) K) (x : Fin n → K) (i j : Fin n) : K :=
  (rowCum q i j - q i j) * (x i * (9 / 10)) + barBottom x i

/-- The values of `bl` (`plotting.py:446`). -/
def bandLeftHigh {n : ℕ} (q : Matrix (Fin n) (Fin n) K) (x : Fin n → K) (i j : Fin n) : K :=
  rowCum q i j * (x i * (9 / 10)) + barBottom x i

/-- The loop over the states (`plotting.py:437-450`) with the array `bj`: the values of `bj` at the
beginning of each iteration. -/
def bandLoop {n : ℕ} (q : Matrix (Fin n) (Fin n) K) (x : Fin n → K) :
    (Fin n → K) → List (Fin n) → List (Fin n × (Fin n → K))
  | _, [] => []
  | b, i :: is =>
    (i, b) :: bandLoop q x (fun j => b j + (bandLeftHigh q x i j - bandLeftLow q x i j)) is

/-- The bands between the columns `x` and `y` (`plotting.py:431-450`): for every state of `x`, in their
order, the bands to all states of `y`. The curves between the ends are not modelled. -/
def flowBands {n : ℕ} (q : Matrix (Fin n) (Fin n) K) (x y : Fin n → K) : List (Fin n × (Fin n → Band K)) :=
  (bandLoop q x (barBottom y) (List.finRange n)).map fun r => (r.1, fun j =>
    { leftLow := bandLeftLow q x r.1 j
      leftHigh := bandLeftHigh q x r.1 j
      rightLow := r.2 j
      rightHigh := r.2 j + bandLeftHigh q x r.1 j - bandLeftLow q x r.1 j })

/-- `indices[oj + 1] - indices[oj]` for `oj + 1 < len(indices)` (`plotting.py:431`). -/
def flowStep (indices : List ℕ) (oj : ℕ) : ℕ := indices.getD (oj + 1) 0 - indices.getD oj 0

/-- What the flow plot shows. -/
structure FlowPlot (K : Type) (n : ℕ) where
  columns : List (Fin n → K)
  /-- the lower and upper ends of the bars of each column -/
  bars : List (Fin n → K × K)
  /-- the bands between each column and the next -/
  flows : List (List (Fin n × (Fin n → Band K)))
  limits : K × K

/-- `plot_flow` for a chain (`plotting.py:462-516`). Colours are not modelled. -/
def plotFlow (c : MC K) (steps interval status : PyVal K) : R (FlowPlot K c.n) :=
  validateInteger steps (some (1, false)) none >>= fun s =>
  validateInteger interval (some (1, false)) none >>= fun t =>
  flowColumns c steps interval status >>= fun columns =>
  pure {
    columns := columns
    bars := columns.map fun x i => (barBottom x i, barTop x i)
    flows := (List.range (columns.length - 1)).map fun oj =>
      flowBands (c.p ^ flowStep (flowIndices s.toNat t.toNat) oj) (columns.getD oj 0) (columns.getD (oj + 1) 0)
    limits := flowLimits s.toNat }

/-! ## Trellis plot -/

/-- The loops over rows, columns and next rows (`plotting.py:1331-1342`, `:1387-1398`): the triples for
which an edge is added. The condition on the first column looks at `initial_distribution[col]`. -/
def trellisLoop {n : ℕ} (P : Matrix (Fin n) (Fin n) K) (init : Fin n → K) (f : ℕ) :
    List (Fin n × ℕ × Fin n) :=
  (List.finRange n).flatMap fun row => (List.range (f - 1)).flatMap fun col =>
    if col = 0 ∧ ¬ 0 < (List.ofFn init).getD col 0 then []
    else ((List.finRange n).filter fun next => decide (0 < P row next)).map fun next => (row, col, next)

/-- The two ends of an edge, as numbers of nodes (`plotting.py:1344-1349`, `:1400-1404`). -/
def trellisEnds {n : ℕ} (forward : Bool) (f : ℕ) (e : Fin n × ℕ × Fin n) : ℕ × ℕ :=
  if forward then (e.1 * f + e.2.1, e.2.2 * f + e.2.1 + 1) else (e.2.2 * f + e.2.1 + 1, e.1 * f + e.2.1)

/-- The condition of the colour in extended mode (`plotting.py:1351`). -/
def onPathExtended {n : ℕ} (path : List (Fin n)) (e : Fin n × ℕ × Fin n) : Bool :=
  decide (path[e.2.1]? = some e.1 ∧ path[e.2.1 + 1]? = some e.2.2)

/-- `on_path` in standard mode (`plotting.py:1402`, `:1405`). -/
def onPathStandard {n : ℕ} (forward : Bool) (path : List (Fin n)) (e : Fin n × ℕ × Fin n) : Bool :=
  if forward then decide (path[e.2.1]? = some e.1 ∧ path[e.2.1 + 1]? = some e.2.2)
  else decide (path[e.2.1]? = some e.2.2 ∧ path[e.2.1 + 1]? = some e.1)

/-- The order of `edges` of a `networkx.DiGraph` with nodes `0, …, count - 1`: by the source, then by
insertion. -/
def digraphOrder (count : ℕ) (edges : List (ℕ × ℕ)) : List (ℕ × ℕ) :=
  (List.range count).flatMap fun v => edges.filter fun e => decide (e.1 = v)

/-- The edges of the extended trellis with their colours (`plotting.py:1331-1353`); `true` is the colour
of the path. -/
def edgesExtended {n : ℕ} (forward : Bool) (P : Matrix (Fin n) (Fin n) K) (init : Fin n → K) (f : ℕ)
    (path : List (Fin n)) : List ((ℕ × ℕ) × Bool) :=
  (trellisLoop P init f).map fun e => (trellisEnds forward f e, onPathExtended path e)

/-- The edges of the standard trellis with their colours (`plotting.py:1385-1410`). `draw_networkx`
(`plotting.py:1479`, `:1487`) gives the colours of the list, in its order, to the edges of the graph, in
the order of the graph. The nodes of labels and headers have no edges. -/
def edgesStandard {n : ℕ} (forward : Bool) (P : Matrix (Fin n) (Fin n) K) (init : Fin n → K) (f : ℕ)
    (path : List (Fin n)) : List ((ℕ × ℕ) × Bool) :=
  (digraphOrder (n * f) ((trellisLoop P init f).map (trellisEnds forward f))).zip
    ((trellisLoop P init f).map (onPathStandard forward path))

/-- A trellis: headers of the columns (`none` is the label `T₀`), the numbers in the nodes of each
column, the highlighted nodes and the edges. -/
structure Trellis (K : Type) (n k : ℕ) where
  headers : List (Option (Fin k))
  values : List (Fin n → K)
  highlighted : List (Fin n)
  edges : List ((ℕ × ℕ) × Bool)

/-- One trellis (`plotting.py:1295-1355`, `:1357-1436`): `matrix` are the columns of the probabilities,
of which the first `f` are used. -/
def trellis {n k : ℕ} (standard forward : Bool) (P : Matrix (Fin n) (Fin n) K) (init : Fin n → K)
    (symbols : List (Fin k)) (matrix : List (Fin n → K)) (path : List (Fin n)) : Trellis K n k :=
  { headers := none :: symbols.tail.map some
    values := matrix.take symbols.length
    highlighted := path.take symbols.length
    edges := if standard then edgesStandard forward P init symbols.length path
      else edgesExtended forward P init symbols.length path }

/-- The initial distribution (`plotting.py:1507-1511`). -/
def trellisStart {n : ℕ} (initial : Option (Fin n)) : Fin n → K :=
  match initial with
  | none => fun _ => 1 / (n : K)
  | some i => fun j => if j = i then 1 else 0

/-- The symbols of the simulation (`plotting.py:1513`). -/
def trellisSymbols (m : HMM K) (hn : 0 < m.n) (hk : 0 < m.k) (choice : Choice K m.k) (pr er : ℕ → K)
    (start : Fin m.n) (steps : ℕ) (initial : Option (Fin m.n)) : List (Fin m.k) :=
  (hmmSimulate m.p m.e hn hk choice pr er steps (initial.getD start) none none).map Prod.snd

/-- The backward and the forward trellis (`plotting.py:1515-1540`). -/
noncomputable def trellisPair (m : HMM ℝ) (rnd : ℝ → ℝ) (standard : Bool) (init : Fin m.n → ℝ)
    (symbols : List (Fin m.k)) : R (Trellis ℝ m.n m.k × Trellis ℝ m.n m.k) :=
  match hmmDecode m.p m.e init symbols true with
  | none => throw .valueError
  | some d =>
    match hmmPredict rnd "mle" m.p m.e init symbols with
    | none => throw .valueError
    | some r => pure (trellis standard false m.p init symbols d.2.backward r.2,
        trellis standard true m.p init symbols d.2.forward r.2)

/-- `plot_trellis` (`plotting.py:1496-1540`); `standard` says which of the two modes is used. -/
noncomputable def plotTrellis (m : HMM ℝ) (hn : 0 < m.n) (hk : 0 < m.k) (choice : Choice ℝ m.k)
    (pr er : ℕ → ℝ) (start : Fin m.n) (rnd : ℝ → ℝ) (standard : Bool) (steps initialState : PyVal ℝ) :
    R (Trellis ℝ m.n m.k × Trellis ℝ m.n m.k) :=
  validateInteger steps (some (2, false)) none >>= fun s =>
  optionalLabel initialState m.states m.n >>= fun i =>
  trellisPair m rnd standard (trellisStart i) (trellisSymbols m hn hk choice pr er start s.toNat i)

/-! ## Graph plot -/

/-- The entries of a matrix, row by row. -/
def entries {n k : ℕ} (M : Matrix (Fin n) (Fin k) K) : List K :=
  (List.finRange n).flatMap fun i => (List.finRange k).map fun j => M i j

/-- `np.min` of a matrix (`plotting.py:555`). -/
def minEntry {n k : ℕ} (M : Matrix (Fin n) (Fin k) K) : K := (entries M).min?.getD 0

/-- `element_magnitude` for a smallest entry (`plotting.py:556`); `math.floor(math.log10(x))` is the
greatest exponent of a power of ten not above `x`. -/
def magnitudeOf [FloorSemiring K] (m : K) : ℤ := if m = 0 then 0 else -Int.log 10 |m|

/-- `_calculate_magnitude` (`plotting.py:550-561`), given the smallest entries. -/
def magnitude [FloorSemiring K] (minima : List K) : ℕ :=
  (max 1 (min (((minima.map magnitudeOf).max?).getD 0) 4)).toNat

/-- The loop of `_node_colors` (`plotting.py:610-628`) as positions in the tuple of nine colours
(`plotting.py:97`); `offset` is `colors_offset`. -/
def nodeColorsFrom : ℕ → ℕ → List ℕ
  | _, 0 => []
  | offset, count + 1 =>
    offset :: nodeColorsFrom (if offset + 1 > 9 - 1 then 0 else offset + 1) count

/-- `_node_colors` (`plotting.py:610-628`). -/
def nodeColors (count : ℕ) : List ℕ := nodeColorsFrom 0 count

/-- A node: its label, the position of its colour (`none` without colour), and whether it has the second
shape: a rectangle for chains, a hexagon for hidden models. -/
structure PlotNode where
  label : String
  color : Option ℕ
  second : Bool
deriving DecidableEq

/-- The colour of a state (`plotting.py:841-846`, `:902-906`): the first communicating class with the
state is looked up. -/
def classColor (classes : List (List String)) (state : String) : Option ℕ :=
  (classes.findIdx? fun cc => decide (state ∈ cc)).bind fun index => (nodeColors classes.length)[index]?

/-- The nodes of a chain (`plotting.py:835-854`, `:898-916`). -/
def graphNodes (c : MC K) (sccs : List (List (Fin c.n))) (color shape : Bool) : List PlotNode :=
  c.states.map fun s =>
    { label := s
      color := if color then classColor (communicatingClasses c sccs) s else none
      second := shape && decide (s ∈ transientStates c sccs) }

/-- The edges for a matrix of probabilities with their labels (`plotting.py:856-873`, `:922-951`). A
label is the rounded number multiplied by `10 ^ d`, where `d` is the number of digits; `rnd d x` is
`round(x, d) * 10 ^ d`. -/
def graphEdges {n k : ℕ} (M : Matrix (Fin n) (Fin k) K) (label : Bool) (rnd : ℕ → K → ℤ) (d : ℕ) :
    List (Fin n × Fin k × Option ℤ) :=
  (List.finRange n).flatMap fun i => ((List.finRange k).filter fun j => decide (0 < M i j)).map fun j =>
    (i, j, if label then some (rnd d (M i j)) else none)

/-- The graph plot of a chain: nodes, edges with labels, number of digits of the labels. -/
structure GraphPlot (n : ℕ) where
  nodes : List PlotNode
  edges : List (Fin n × Fin n × Option ℤ)
  digits : ℕ

/-- `plot_graph` of a chain (`plotting.py:963-990`, `:827-961`). Nodes and edges are the same in both
modes. `sccs` is the result of `networkx`. -/
def plotGraph [FloorSemiring K] (c : MC K) (sccs : List (List (Fin c.n))) (rnd : ℕ → K → ℤ)
    (nodesColor nodesShape edgesLabel forceStandard : PyVal K) : R (GraphPlot c.n) :=
  validateBoolean nodesColor >>= fun color =>
  validateBoolean nodesShape >>= fun shape =>
  validateBoolean edgesLabel >>= fun label =>
  validateBoolean forceStandard >>= fun _ =>
  pure { nodes := graphNodes c sccs color shape
         edges := graphEdges c.p label rnd (magnitude [minEntry c.p])
         digits := magnitude [minEntry c.p] }

/-- The graph plot of a hidden model: nodes, edges between states, edges to symbols, digits. -/
structure HiddenGraphPlot (n k : ℕ) where
  nodes : List PlotNode
  transitions : List (Fin n × Fin n × Option ℤ)
  emissions : List (Fin n × Fin k × Option ℤ)
  digits : ℕ

/-- The nodes of a hidden model (`plotting.py:646-672`, `:740-758`): every state takes the next colour
and the symbols are gray, here the colour number nine. -/
def hiddenGraphNodes (m : HMM K) (color shape : Bool) : List PlotNode :=
  (m.states.zipIdx.map fun s =>
    { label := s.1, color := if color then (nodeColors m.n)[s.2]? else none, second := false }) ++
  m.symbols.map fun s => { label := s, color := if color then some 9 else none, second := shape }

/-- `plot_graph` of a hidden model (`plotting.py:963-990`, `:631-824`). -/
def plotHiddenGraph [FloorSemiring K] (m : HMM K) (rnd : ℕ → K → ℤ)
    (nodesColor nodesShape edgesLabel forceStandard : PyVal K) : R (HiddenGraphPlot m.n m.k) :=
  validateBoolean nodesColor >>= fun color =>
  validateBoolean nodesShape >>= fun shape =>
  validateBoolean edgesLabel >>= fun label =>
  validateBoolean forceStandard >>= fun _ =>
  pure { nodes := hiddenGraphNodes m color shape
         transitions := graphEdges m.p label rnd (magnitude [minEntry m.p, minEntry m.e])
         emissions := graphEdges m.e label rnd (magnitude [minEntry m.p, minEntry m.e])
         digits := magnitude [minEntry m.p, minEntry m.e] }

/-! ## Sequence plot -/

/-- What one panel of a sequence plot shows. -/
inductive SequencePanel (K : Type) (n : ℕ)
  | heatmap (m : Fin n → Fin n → K)
  | histogram (v : Fin n → K)
  | matrix (m : Fin n → List K)

/-- The array with a one in the row of the element `t` of the sequence and the column `t`
(`plotting.py:1174-1177`, `:1208-1211`). -/
def sequenceIndicator {n : ℕ} (seq : List (Fin n)) (i : Fin n) (t : ℕ) : K :=
  if seq[t]? = some i then 1 else 0

/-- `sequence_histogram` (`plotting.py:1174-1179`). -/
def sequenceHistogram {n : ℕ} (walkSteps : ℕ) (seq : List (Fin n)) (i : Fin n) : K :=
  (∑ t ∈ Finset.range walkSteps, sequenceIndicator seq i t) /
    ∑ j, ∑ t ∈ Finset.range walkSteps, sequenceIndicator seq j t

/-- `sequence_matrix` of the heatmap before the division (`plotting.py:1134-1137`). -/
def sequenceMoves {n : ℕ} (walkSteps : ℕ) (seq : List (Fin n)) (i j : Fin n) : K :=
  ∑ t ∈ Finset.Ico 1 walkSteps, if seq[t - 1]? = some i ∧ seq[t]? = some j then 1 else 0

/-- `sequence_matrix` of the heatmap (`plotting.py:1134-1139`). -/
def sequenceHeatmap {n : ℕ} (walkSteps : ℕ) (seq : List (Fin n)) (i j : Fin n) : K :=
  sequenceMoves walkSteps seq i j / ∑ a, ∑ b, sequenceMoves walkSteps seq a b

/-- The choice of the plot (`plotting.py:1256-1261`). -/
def sequencePanel {n : ℕ} (type : String) (walkSteps : ℕ) (seq : List (Fin n)) : SequencePanel K n :=
  if type = "heatmap" then .heatmap (sequenceHeatmap walkSteps seq)
  else if type = "histogram" then .histogram (sequenceHistogram walkSteps seq)
  else .matrix fun i => (List.range walkSteps).map (sequenceIndicator seq i)

/-- `plot_sequence` for a chain (`plotting.py:1226-1269`); `start` is the initial state that is drawn if
none is given. -/
def plotSequence (c : MC K) (choice : Choice K c.n) (start : Fin c.n)
    (steps initialState plotType : PyVal K) : R (SequencePanel K c.n) :=
  validateInteger steps (some (2, false)) none >>= fun s =>
  optionalLabel initialState c.states c.n >>= fun i =>
  validateEnumerator plotType ["heatmap", "histogram", "matrix"] >>= fun type =>
  pure (sequencePanel type (s.toNat + 1) (mcSimulate choice c.p s.toNat (i.getD start) none))

/-- `plot_sequence` for a hidden model (`plotting.py:1226-1269`): the panels of the states and of the
symbols. -/
def plotHiddenSequence (m : HMM K) (hn : 0 < m.n) (hk : 0 < m.k) (choice : Choice K m.k) (pr er : ℕ → K)
    (start : Fin m.n) (steps initialState plotType : PyVal K) :
    R (SequencePanel K m.n × SequencePanel K m.k) :=
  validateInteger steps (some (2, false)) none >>= fun s =>
  optionalLabel initialState m.states m.n >>= fun i =>
  validateEnumerator plotType ["heatmap", "histogram", "matrix"] >>= fun type =>
  let run := hmmSimulate m.p m.e hn hk choice pr er s.toNat (i.getD start) none none
  pure (sequencePanel type (s.toNat + 1) (run.map Prod.fst),
    sequencePanel type (s.toNat + 1) (run.map Prod.snd))

/-! ## Redistributions plot -/

/-- The validated initial status (`plotting.py:1024`). -/
def optionalStatus (v : PyVal K) (labels : List String) : R (Option (List K)) :=
  match v with
  | .none => pure none
  | v => validateStatus v labels >>= fun l => pure (some l)

/-- The validated initial status as an argument of `redistribute` (`plotting.py:1036`). -/
def statusArgument : Option (List K) → PyVal K
  | none => .none
  | some l => .array (.vec (l.map .fin))

/-- The condition of the exception (`plotting.py:1038`). -/
def statusMismatch {n : ℕ} (status : Option (List K)) (ds : List (Fin n → K)) : Prop :=
  match status with
  | none => False
  | some l => ds.headD 0 ≠ listVec l n

instance {n : ℕ} (status : Option (List K)) (ds : List (Fin n → K)) :
    Decidable (statusMismatch status ds) := by
  unfold statusMismatch
  split <;> infer_instance

/-- A redistributions plot: for every state its row in the heatmap or its curve, and whether the mark
"Start" is drawn. -/
structure RedistributionsPlot (K : Type) (n : ℕ) where
  heatmap : Bool
  curves : Fin n → List K
  start : Bool

/-- The plot of the distributions (`plotting.py:1046-1076`). -/
def redistributionsPlot {n : ℕ} (type : String) (ds : List (Fin n → K)) : RedistributionsPlot K n :=
  { heatmap := decide (type = "heatmap")
    curves := fun i => ds.map fun d => d i
    start := decide (type ≠ "heatmap") && allcloseVec (ds.headD 0) fun _ => 1 / (n : K) }

/-- `plot_redistributions` (`plotting.py:1020-1092`). A hidden model is replaced by its chain of states
(`plotting.py:1031-1034`). -/
def plotRedistributions (c : MC K) (redistributions status plotType : PyVal K) :
    R (RedistributionsPlot K c.n) :=
  validateInteger redistributions (some (1, false)) none >>= fun s =>
  optionalStatus status c.states >>= fun d =>
  validateEnumerator plotType ["heatmap", "projection"] >>= fun type =>
  redistribute c (.int s) (statusArgument d) (.bool false) >>= fun ds =>
  if statusMismatch d ds then throw .valueError
  else pure (redistributionsPlot type ds)

/-! ## Comparison plot -/

/-- A model: a Markov chain or a hidden Markov model. -/
inductive AnyModel (K : Type)
  | chain (c : MC K)
  | hidden (m : HMM K)

/-- The test for hidden Markov models (`plotting.py:198`, `utilities.py:167`). -/
def AnyModel.isHidden : AnyModel K → Bool
  | .chain _ => false
  | .hidden _ => true

/-- The rows of a matrix. -/
def matrixRows {m n : ℕ} (M : Matrix (Fin m) (Fin n) K) : List (List K) :=
  List.ofFn fun i => List.ofFn fun j => M i j

/-- `model.e if underlying_matrices == 'emission' else model.p` (`plotting.py:213`). -/
def AnyModel.shown (emission : Bool) : AnyModel K → List (List K)
  | .chain c => matrixRows c.p
  | .hidden m => if emission then matrixRows m.e else matrixRows m.p

/-- `create_models_names` (`utilities.py:165-176`). -/
def modelsNames (models : List (AnyModel K)) : List String :=
  let label := if models.all (·.isHidden) then "HMM"
    else if models.all (fun m => !m.isHidden) then "MC" else "MODEL"
  (List.range models.length).map fun k => "$\\mathregular{" ++ label ++ "_" ++ toString (k + 1) ++ "}$"

/-- `is_string` on the elements of a list (`validation.py:978`). -/
def asStrings : List (PyVal K) → Option (List String)
  | [] => some []
  | .str s :: t => if nonBlank s then (asStrings t).map (s :: ·) else none
  | _ :: _ => none

/-- `validate_strings` (`validation.py:973-989`). -/
def validateStrings (v : PyVal K) (size : ℕ) : R (List String) :=
  match v with
  | .list l =>
    match asStrings l with
    | none => throw .typeError
    | some names =>
      if names.length = 0 then throw .valueError
      else if names.length ≠ size then throw .valueError
      else pure names
  | _ => throw .valueError

/-- The names (`plotting.py:192`). -/
def comparisonNames (models : List (AnyModel K)) (names : PyVal K) : R (List String) :=
  match names with
  | .none => pure (modelsNames models)
  | v => validateStrings v models.length

/-- `int(math.sqrt(space))` (`plotting.py:202`), exact for the lengths of lists. -/
def comparisonRows (space : ℕ) : ℕ := Nat.sqrt space

/-- `int(math.ceil(space / float(rows)))` (`plotting.py:203`). -/
def comparisonColumns (space : ℕ) : ℕ := ⌈(space : ℚ) / comparisonRows space⌉₊

/-- A comparison plot: the numbers of rows and columns of the grid and for each of its cells, row by
row, the title and the matrix that is shown, if any. -/
structure ComparisonPlot (K : Type) where
  rows : ℕ
  columns : ℕ
  cells : List (Option (String × List (List K)))

/-- The grid and the loop over the cells (`plotting.py:201-216`). -/
def comparisonPlot (emission : Bool) (models : List (AnyModel K)) (names : List String) :
    ComparisonPlot K :=
  let rows := comparisonRows models.length
  let columns := comparisonColumns models.length
  { rows := rows
    columns := columns
    cells := (List.range (rows * columns)).map fun k =>
      ((models.zip names)[k]?).map fun x => (x.2, x.1.shown emission) }

/-- `plot_comparison` (`plotting.py:188-233`) for a list of models. -/
def plotComparison (models : List (AnyModel K)) (matrices names : PyVal K) : R (ComparisonPlot K) :=
  if models.length < 2 then throw .valueError
  else
    validateEnumerator matrices ["emission", "transition"] >>= fun type =>
    comparisonNames models names >>= fun titles =>
    if type = "emission" ∧ ¬ models.all (·.isHidden) then throw .valueError
    else pure (comparisonPlot (decide (type = "emission")) models titles)

/-! ## Eigenvalues plot -/

/-- An eigenvalues plot: the points, and the radius of the inner circle of the spectral gap, if it is
drawn. -/
structure EigenvaluesPlot where
  points : List ℂ
  circle : Option ℝ

/-- The radius `mu` (`plotting.py:275-287`). -/
noncomputable def gapCircle (c : MC ℝ) (nx : Nx c.n) (ev : List ℂ) : Option ℝ :=
  if isErgodic c nx = false then none
  else match ((eigenvaluesSorted ev).filter fun x => !isclose x 1).getLast? with
    | none => none
    | some mu => if isclose mu 0 then none else some mu

/-- `plot_eigenvalues` (`plotting.py:258-317`); `ev` are the eigenvalues returned by
`numpy.linalg.eigvals`. The order of the points is not modelled. A hidden model is replaced by its
chain of states (`plotting.py:258-261`). -/
noncomputable def plotEigenvalues (c : MC ℝ) (nx : Nx c.n) (ev : List ℂ) : EigenvaluesPlot :=
  { points := (ev ++ [1]).dedup
    circle := gapCircle c nx ev }

end Verif
