import Verif.Model.Rounded

/-!
# The mixing time with rounded arithmetic

`mc_mixing_time` (`/repo/pydtmc/measures.py`) and `mixing_time` (`/repo/pydtmc/markov_chain.py`) with arithmetic
operations that may round. The validation of a given distribution is not repeated.
-/

namespace Verif

variable {K : Type} [Field K] [LinearOrder K]

/-- `d.dot(p)` (`measures.py:479`, `:487`). -/
def mixStepF (F : Arith K) {n : ℕ} (P : Matrix (Fin n) (Fin n) K) (d : Fin n → K) : Fin n → K :=
  fun j => F.dot (List.ofFn fun i => (d i, P i j))

/-- `np.sum(np.abs(d - pi))` (`measures.py:486`); differences are rounded by `fl`. -/
def distanceF (F : Arith K) (fl : K → K) {n : ℕ} (d x : Fin n → K) : K :=
  F.sum (List.ofFn fun i => |fl (d i - x i)|)

/-- The loop (`measures.py:482-488`) with `fuel` iterations left; the result holds the number of
iterations left and `mt`. -/
def mixingLoopF (F : Arith K) (fl : K → K) {n : ℕ} (P : Matrix (Fin n) (Fin n) K) (x : Fin n → K) (cutoff : K)
    (jump : ℤ) : ℕ → K → (Fin n → K) → ℤ → ℕ × ℤ
  | 0, _, _, mt => (0, mt)
  | fuel + 1, tvd, d, mt =>
    if tvd > cutoff then mixingLoopF F fl P x cutoff jump fuel (distanceF F fl d x) (mixStepF F P d) (mt + jump)
    else (fuel + 1, mt)

/-- `mc_mixing_time` (`measures.py:469-493`). -/
def mcMixingTimeF (F : Arith K) (fl : K → K) (c : MC K) (nx : Nx c.n) (d : Fin c.n → K) (jump : ℤ) (cutoff : K) :
    R (Option ℤ) :=
  if isErgodic c nx then
    piF F c nx.sccs >>= fun l =>
    orRaise l.head? >>= fun x =>
    let r := mixingLoopF F fl c.p x cutoff jump 100 1 (mixStepF F c.p d) 0
    pure (if r.1 = 0 then none else some r.2)
  else pure none

/-- The optional initial distribution (`markov_chain.py:1669`). -/
def initialDistributionF (F : Arith K) (n : ℕ) (d : Option (PyVal K)) : R (Fin n → K) :=
  match d with
  | none => pure fun _ => F.div 1 (n : K)
  | some v => validateVector v .stochastic false (some n) >>= fun l => pure (listVec l n)

/-- `mixing_time` (`markov_chain.py:1649-1679`); the natural cutoff `1 / (2 e)` is a parameter. -/
def mixingTimeF (F : Arith K) (fl : K → K) (c : MC K) (nx : Nx c.n) (natural : K) (d : Option (PyVal K))
    (jump kind : PyVal K) : R (Option ℤ) :=
  initialDistributionF F c.n d >>= fun d =>
  validateInteger jump (some (0, true)) none >>= fun jump =>
  validateEnumerator kind ["natural", "traditional"] >>= fun kind =>
  mcMixingTimeF F fl c nx d jump (if kind = "traditional" then 1 / 4 else natural)

end Verif
