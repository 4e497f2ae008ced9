import Verif.Model.Serial

/-!
# Conversion to graphs

Models `to_graph` of both classes and `HiddenMarkovModel.from_graph`; `MarkovChain.from_graph` is
`fromGraph`. A graph of `networkx` is its list of nodes, in insertion order, and its list of edges with
their attributes.
-/

namespace Verif

variable {K : Type} [Field K] [LinearOrder K]

/-- `MarkovChain.to_graph` (`markov_chain.py:1990-1998`): a copy of the graph built by
`build_mc_graph` (`utilities.py:112-130`). -/
def mcToGraph (c : MC K) : Graph K where
  nodes := c.states
  edges := (List.finRange c.n).flatMap fun i => (List.finRange c.n).filterMap fun j =>
    if 0 < c.p i j then some (c.states.getD i.val "", c.states.getD j.val "", c.p i j) else none

/-- An edge of a graph with layers. -/
structure TypedEdge (K : Type) where
  source : String
  target : String
  type : String
  weight : K

/-- A directed graph whose nodes have layers and whose edges have types. -/
structure LayerGraph (K : Type) where
  nodes : List (String × ℤ)
  edges : List (TypedEdge K)

/-- `HiddenMarkovModel.to_graph` (`hidden_markov_model.py:532-540`): a copy of the graph built by
`build_hmm_graph` (`utilities.py:83-109`). -/
def hmmToGraph (m : HMM K) : LayerGraph K where
  nodes := m.states.map (fun s => (s, 1)) ++ m.symbols.map fun s => (s, 0)
  edges := (List.finRange m.n).flatMap fun i =>
    ((List.finRange m.n).filterMap fun j =>
      if 0 < m.p i j then some ⟨m.states.getD i.val "", m.states.getD j.val "", "P", m.p i j⟩
      else none) ++
    (List.finRange m.k).filterMap fun j =>
      if 0 < m.e i j then some ⟨m.states.getD i.val "", m.symbols.getD j.val "", "E", m.e i j⟩
      else none

/-- `validate_graph` with two layers and the edge types `E` and `P` (`validation.py:348-408`). -/
def validateLayerGraph (g : LayerGraph K) : R Unit :=
  if ¬ g.nodes.all (fun x => nonBlank x.1) then throw .valueError
  else if ¬ g.nodes.all (fun x => decide (x.2 = 0 ∨ x.2 = 1)) then throw .valueError
  else if (g.nodes.filter fun x => decide (x.2 = 0)).length < 2 ∨
      (g.nodes.filter fun x => decide (x.2 = 1)).length < 2 then throw .valueError
  else if ¬ g.edges.all (fun e => decide (0 < e.weight)) then throw .valueError
  else if ¬ g.edges.all (fun e => decide (e.type = "E" ∨ e.type = "P")) then throw .valueError
  else pure ()

/-- The loop over the rows (`hidden_markov_model.py:844-858`), for a matrix with any number of columns. -/
def normalizeRowsOrUniform {m n : ℕ} (M : Matrix (Fin m) (Fin n) K) : Matrix (Fin m) (Fin n) K :=
  fun i j => if isclose (∑ l, M i l) 0 then 1 / (n : K) else M i j / ∑ l, M i l

/-- The nodes of a layer (`hidden_markov_model.py:818-820`). -/
def layerNodes (g : LayerGraph K) (layer : ℤ) : List String :=
  (g.nodes.filter fun x => decide (x.2 = layer)).map Prod.fst

/-- The matrices and the constructor (`hidden_markov_model.py:822-860`). The constructor only checks
that no label is both a state and a symbol. -/
def hmmOfGraph (states symbols : List String) (edges : List (TypedEdge K)) : R (HMM K) :=
  dictMatrices states symbols (edges.map fun e => ([e.type, e.source, e.target], e.weight)) >>= fun M =>
  if states.any (fun s => decide (s ∈ symbols)) then throw .valueError
  else pure ⟨states.length, symbols.length, normalizeRowsOrUniform M.1, normalizeRowsOrUniform M.2,
    states, symbols⟩

/-- `HiddenMarkovModel.from_graph` (`hidden_markov_model.py:803-862`). -/
def hmmFromGraph (g : LayerGraph K) : R (HMM K) :=
  validateLayerGraph g >>= fun _ => hmmOfGraph (layerNodes g 1) (layerNodes g 0) g.edges

end Verif
