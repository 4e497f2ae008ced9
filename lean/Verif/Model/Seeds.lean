import Verif.Model.Hidden
import Verif.Model.Simulation

/-!
# Seeds and the state of the random number generator

The simulations of `Verif.Model.Simulation` and `Verif.Model.Hidden` take the values of the generator as
parameters. Here the generator has a state: a call without a seed uses and moves the generator that is
shared by the whole process, a call with a seed uses a new one.
-/

namespace Verif

variable {K : Type} [Field K] [LinearOrder K] {σ α β : Type}

/-- `numpy.random.RandomState`: the state after seeding, and the methods with the state that they leave
behind. `random m` draws `m` numbers. The algorithms of NumPy are a parameter. -/
structure Rng (σ K : Type) where
  seeded : ℕ → σ
  randint : (n : ℕ) → [NeZero n] → σ → Fin n × σ
  choice : (n : ℕ) → [NeZero n] → (Fin n → K) → σ → Fin n × σ
  random : ℕ → σ → (ℕ → K) × σ

/-- `create_rng` (`utilities.py:180-189`): no seed means the shared generator. `RandomState` raises
`ValueError` if the seed does not have 32 bits. -/
def createRng (seed : PyVal K) : R (Option ℕ) :=
  match seed with
  | .none => pure none
  | .int z => if 0 ≤ z ∧ z < 2 ^ 32 then pure (some z.toNat) else throw .valueError
  | _ => throw .typeError

/-- A computation that uses a generator. An exception does not undo the draws made before. -/
abbrev Prog (σ α : Type) := σ → R α × σ

/-- A computation without draws. -/
def Prog.lift (x : R α) : Prog σ α := fun g => (x, g)

/-- A draw. -/
def Prog.draw (f : σ → α × σ) : Prog σ α := fun g => (.ok (f g).1, (f g).2)

/-- One computation after the other. -/
def Prog.bind (p : Prog σ α) (f : α → Prog σ β) : Prog σ β := fun g =>
  match p g with
  | (.ok a, g') => f a g'
  | (.error e, g') => (.error e, g')

/-- A call of a method with the parameter `seed` while the shared generator is in the state `g`: the
result and the state of the shared generator afterwards (`markov_chain.py:1695`, `:1824`, `:2231`,
`:2670`, `:2723`, `hidden_markov_model.py:359`, `:464`, `:941`). -/
def callSeeded (G : Rng σ K) (seed : PyVal K) (p : Prog σ α) (g : σ) : R α × σ :=
  match createRng seed with
  | .error e => (.error e, g)
  | .ok none => p g
  | .ok (some s) => ((p (G.seeded s)).1, g)

/-- Calls one after the other: the results and the state of the shared generator afterwards. -/
def history (G : Rng σ K) : List (PyVal K × Prog σ α) → σ → List (R α) × σ
  | [], g => ([], g)
  | x :: l, g =>
    let r := callSeeded G x.1 x.2 g
    let t := history G l r.2
    (r.1 :: t.1, t.2)

/-! ## Chains -/

/-- `rng.randint(0, size) if initial_state is None else validate_label(initial_state, states)`
(`markov_chain.py:1826`, `hidden_markov_model.py:466`). -/
def startState (G : Rng σ K) (v : PyVal K) (labels : List String) (n : ℕ) [NeZero n] : Prog σ (Fin n) :=
  match v with
  | .none => .draw (G.randint n)
  | v => .lift (validateLabel v labels >>= fun k => asState n k)

/-- The loop of `mc_simulate` (`simulations.py:222-229`). -/
def drawLoop {n : ℕ} [NeZero n] (G : Rng σ K) (P : Matrix (Fin n) (Fin n) K) (final : Option (Fin n)) :
    ℕ → Fin n → σ → List (Fin n) × σ
  | 0, _, g => ([], g)
  | k + 1, i, g =>
    let r := G.choice n (P i) g
    if final = some r.1 then ([r.1], r.2)
    else
      let t := drawLoop G P final k r.1 r.2
      (r.1 :: t.1, t.2)

/-- The part of `MarkovChain.simulate` after the creation of the generator (`markov_chain.py:1825-1838`).
-/
def simulateProg (G : Rng σ K) (c : MC K) [NeZero c.n]
    (steps initialState finalState outputIndices : PyVal K) : Prog σ Output :=
  (Prog.lift (validateInteger steps (some (2, false)) none)).bind fun s =>
  (startState G initialState c.states c.n).bind fun i =>
  (Prog.lift (optionalLabel finalState c.states c.n)).bind fun f =>
  (Prog.lift (validateBoolean outputIndices)).bind fun b =>
  Prog.draw fun g =>
    let r := drawLoop G c.p f s.toNat i g
    (render c.states b (i :: r.1), r.2)

/-- `MarkovChain.simulate` with its seed (`markov_chain.py:1809-1838`). -/
def simulateSeeded (G : Rng σ K) (c : MC K) [NeZero c.n]
    (steps initialState finalState outputIndices seed : PyVal K) : Prog σ Output :=
  callSeeded G seed (simulateProg G c steps initialState finalState outputIndices)

/-- The part of `MarkovChain.next` after the creation of the generator (`markov_chain.py:1696-1707`). -/
def nextProg (G : Rng σ K) (c : MC K) [NeZero c.n] (initialState outputIndex : PyVal K) : Prog σ Output :=
  (Prog.lift (validateLabel initialState c.states)).bind fun k =>
  (Prog.lift (asState c.n k)).bind fun i =>
  (Prog.lift (validateBoolean outputIndex)).bind fun b =>
  Prog.draw fun g =>
    let r := drawLoop G c.p none 1 i g
    (render c.states b [(i :: r.1).getLastD i], r.2)

/-- `MarkovChain.next` with its seed (`markov_chain.py:1682-1707`). -/
def nextSeeded (G : Rng σ K) (c : MC K) [NeZero c.n] (initialState outputIndex seed : PyVal K) :
    Prog σ Output :=
  callSeeded G seed (nextProg G c initialState outputIndex)

/-! ## Hidden Markov models -/

/-- `hmm_simulate` (`simulations.py:109-152`): the first symbol, then all draws for the states, then all
draws for the symbols. -/
def hmmDraws (G : Rng σ K) (m : HMM K) (hn : 0 < m.n) (hk : 0 < m.k) [NeZero m.k] (steps : ℕ) (i : Fin m.n)
    (finalState : Option (Fin m.n)) (finalSymbol : Option (Fin m.k)) (g : σ) :
    List (Fin m.n × Fin m.k) × σ :=
  let y := G.choice m.k (m.e i) g
  let pr := G.random steps y.2
  let er := G.random steps pr.2
  (hmmSimulate m.p m.e hn hk (fun _ w => (G.choice m.k w g).1) pr.1 er.1 steps i finalState finalSymbol, er.2)

/-- The part of `HiddenMarkovModel.simulate` after the creation of the generator
(`hidden_markov_model.py:465-481`). -/
def hmmSimulateProg (G : Rng σ K) (m : HMM K) (hn : 0 < m.n) (hk : 0 < m.k) [NeZero m.n] [NeZero m.k]
    (steps initialState finalState finalSymbol outputIndices : PyVal K) : Prog σ (Output × Output) :=
  (Prog.lift (validateInteger steps (some (2, false)) none)).bind fun s =>
  (startState G initialState m.states m.n).bind fun i =>
  (Prog.lift (optionalLabel finalState m.states m.n)).bind fun f =>
  (Prog.lift (optionalLabel finalSymbol m.symbols m.k)).bind fun q =>
  (Prog.lift (validateBoolean outputIndices)).bind fun b =>
  Prog.draw fun g =>
    let r := hmmDraws G m hn hk s.toNat i f q g
    ((render m.states b (r.1.map Prod.fst), render m.symbols b (r.1.map Prod.snd)), r.2)

/-- `HiddenMarkovModel.simulate` with its seed (`hidden_markov_model.py:448-481`). -/
def hmmSimulateSeeded (G : Rng σ K) (m : HMM K) (hn : 0 < m.n) (hk : 0 < m.k) [NeZero m.n] [NeZero m.k]
    (steps initialState finalState finalSymbol outputIndices seed : PyVal K) : Prog σ (Output × Output) :=
  callSeeded G seed (hmmSimulateProg G m hn hk steps initialState finalState finalSymbol outputIndices)

/-- The result of `HiddenMarkovModel.next`: a state, a symbol, or both. -/
inductive HmmStep
  | state (o : Output)
  | symbol (o : Output)
  | both (o1 o2 : Output)
deriving DecidableEq

/-- The choice of the result (`hidden_markov_model.py:369-376`). -/
def hmmStep (m : HMM K) (target : String) (b : Bool) (x : List (Fin m.n × Fin m.k)) : HmmStep :=
  let s := render m.states b ((x.map Prod.fst).getLast?.toList)
  let y := render m.symbols b ((x.map Prod.snd).getLast?.toList)
  if target = "state" then .state s else if target = "symbol" then .symbol y else .both s y

/-- The part of `HiddenMarkovModel.next` after the creation of the generator
(`hidden_markov_model.py:360-378`). -/
def hmmNextProg (G : Rng σ K) (m : HMM K) (hn : 0 < m.n) (hk : 0 < m.k) [NeZero m.k]
    (initialState target outputIndex : PyVal K) : Prog σ HmmStep :=
  (Prog.lift (validateEnumerator target ["both", "state", "symbol"])).bind fun t =>
  (Prog.lift (validateLabel initialState m.states)).bind fun i =>
  (Prog.lift (asState m.n i)).bind fun i =>
  (Prog.lift (validateBoolean outputIndex)).bind fun b =>
  Prog.draw fun g =>
    let r := hmmDraws G m hn hk 1 i none none g
    (hmmStep m t b r.1, r.2)

/-- `HiddenMarkovModel.next` with its seed (`hidden_markov_model.py:342-378`). -/
def hmmNextSeeded (G : Rng σ K) (m : HMM K) (hn : 0 < m.n) (hk : 0 < m.k) [NeZero m.k]
    (initialState target outputIndex seed : PyVal K) : Prog σ HmmStep :=
  callSeeded G seed (hmmNextProg G m hn hk initialState target outputIndex)

end Verif
