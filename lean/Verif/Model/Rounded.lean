import Verif.Model.Hidden
import Verif.Model.Measures
import Verif.Model.Stationary

/-!
# Programs with rounded arithmetic

The other parts of the model calculate exactly. Here some programs of the library are repeated with arithmetic
operations that may round: `gth_solve` (`/repo/pydtmc/computations.py`) and `pi`
(`/repo/pydtmc/markov_chain.py`), the redistributions (`/repo/pydtmc/simulations.py`), the expected rewards, the
first passage probabilities and the decoding (`/repo/pydtmc/measures.py`), the powers, the test of regularity,
the lumping (`/repo/pydtmc/generators.py`), the test of monotonicity and the normalisation of rows. The validation
of arguments is not repeated.
-/

namespace Verif

variable {K : Type} [Field K] [LinearOrder K]

/-- The operations of an array library: sum, product and quotient of two numbers, `np.sum` and `np.dot` of two
vectors, given as a list of pairs. In which order the terms are added is left open. -/
structure Arith (K : Type) where
  add : K → K → K
  mul : K → K → K
  div : K → K → K
  sum : List K → K
  dot : List (K × K) → K

/-- The operations without rounding. -/
def Arith.exact : Arith K where
  add := (· + ·)
  mul := (· * ·)
  div := (· / ·)
  sum := List.sum
  dot := fun l => (l.map fun p => p.1 * p.2).sum

/-- Every operation is rounded by `fl`, terms are added from the left to the right. -/
def Arith.rounded (fl : K → K) : Arith K where
  add := fun x y => fl (x + y)
  mul := fun x y => fl (x * y)
  div := fun x y => fl (x / y)
  sum := fun l => l.tail.foldl (fun x y => fl (x + y)) (l.headD 0)
  dot := fun l => (l.tail.map fun p => fl (p.1 * p.2)).foldl (fun x y => fl (x + y))
    ((l.map fun p => fl (p.1 * p.2)).headD 0)

/-- The positions of a slice `i:n`. -/
def slice (i n : ℕ) : List ℕ := List.range' i (n - i)

/-- One elimination step (`computations.py:284-285`). The dot product of a column and a row has one product per
entry. -/
def gthStepF (F : Arith K) (n : ℕ) (a : ℕ → ℕ → K) (i : ℕ) (scale : K) : ℕ → ℕ → K := fun j k =>
  if i < j ∧ j < n then
    if k = i then F.div (a j i) scale
    else if i < k ∧ k < n then F.add (a j k) (F.mul (F.div (a j i) scale) (a i k))
    else a j k
  else a j k

/-- The elimination (`computations.py:276-285`): `m` steps are left, step `i` comes next. -/
def gthForwardF (F : Arith K) (n : ℕ) : ℕ → ℕ → (ℕ → ℕ → K) → ℕ × (ℕ → ℕ → K)
  | 0, _, a => (n, a)
  | m + 1, i, a =>
    let scale := F.sum ((slice (i + 1) n).map (a i))
    if scale ≤ 0 then (i + 1, a) else gthForwardF F n m (i + 1) (gthStepF F n a i scale)

/-- The substitution (`computations.py:290-291`), from position `m - 1` down to `0`. -/
def gthBackF (F : Arith K) (n : ℕ) (a : ℕ → ℕ → K) : ℕ → (ℕ → K) → ℕ → K
  | 0, x => x
  | m + 1, x =>
    gthBackF F n a m (Function.update x m (F.dot ((slice (m + 1) n).map fun l => (x l, a l m))))

/-- `gth_solve` (`computations.py:271-295`): length of the result, and the result. -/
def gthSolveF (F : Arith K) (n : ℕ) (a : ℕ → ℕ → K) : ℕ × (ℕ → K) :=
  let r := gthForwardF F n (n - 1) 0 a
  let x := gthBackF F r.1 r.2 (r.1 - 1) fun k => if k = r.1 - 1 then 1 else 0
  (r.1, fun k => F.div (x k) (F.sum ((slice 0 r.1).map x)))

/-- The row of `s` that belongs to the class `C` (`markov_chain.py:882-883`). -/
def piClassF (F : Arith K) {n : ℕ} (P : Matrix (Fin n) (Fin n) K) (C : List (Fin n)) : R (Fin n → K) :=
  let r := gthSolveF F C.length (toArray (subMatrix P C))
  if r.1 = C.length then pure fun i => if i ∈ C then r.2 (C.idxOf i) else 0
  else if r.1 = 1 then pure fun i => if i ∈ C then r.2 0 else 0
  else throw .valueError

/-- `pi` (`markov_chain.py:868-887`). -/
def piF (F : Arith K) (c : MC K) (sccs : List (List (Fin c.n))) : R (List (Fin c.n → K)) :=
  if isIrreducible c sccs then
    let r := gthSolveF F c.n (toArray c.p)
    if r.1 = c.n then pure [fun i => r.2 i] else throw .valueError
  else (recurrentIdx c.p sccs).mapM (piClassF F c.p)

/-! ## Measures of chains -/

/-- One row of the loop in `mc_redistribute` (`simulations.py:183-185`). -/
def redistStepF (F : Arith K) {n : ℕ} (P : Matrix (Fin n) (Fin n) K) (d : Fin n → K) : Fin n → K :=
  let v : Fin n → K := fun j => F.dot (List.ofFn fun i => (d i, P i j))
  fun j => F.div (v j) (F.sum (List.ofFn v))

/-- Row `k` of `value` (`simulations.py:176-192`). -/
def redistRowF (F : Arith K) {n : ℕ} (P : Matrix (Fin n) (Fin n) K) (d : Fin n → K) : ℕ → Fin n → K
  | 0 => d
  | k + 1 => redistStepF F P (redistRowF F P d k)

/-- `MarkovChain.redistribute` (`markov_chain.py:1740-1762`). -/
def redistributeF (F : Arith K) (c : MC K) (steps status outputLast : PyVal K) : R (List (Fin c.n → K)) :=
  validateInteger steps (some (1, false)) none >>= fun z =>
  (match status with
    | .none => pure (List.replicate c.n (F.div 1 (c.n : K)))
    | v => validateStatus v c.states) >>= fun d =>
  validateBoolean outputLast >>= fun last =>
  pure (if last then [redistRowF F c.p (listVec d c.n) z.toNat]
    else (List.range (z.toNat + 1)).map (redistRowF F c.p (listVec d c.n)))

/-- `mc_expected_rewards` (`measures.py:163-171`). -/
def mcExpectedRewardsF (F : Arith K) {n : ℕ} (P : Matrix (Fin n) (Fin n) K) (r : Fin n → K) : ℕ → Fin n → K
  | 0 => r
  | k + 1 => fun i => F.add (r i) (F.dot (List.ofFn fun j => (P i j, mcExpectedRewardsF F P r k j)))

/-- The matrix `g` of `mc_first_passage_probabilities` after `t` passes (`measures.py:211-212`, `:220`). -/
def passageMatrixF (F : Arith K) {n : ℕ} (P : Matrix (Fin n) (Fin n) K) : ℕ → Fin n → Fin n → K
  | 0 => fun i j => P i j
  | t + 1 => fun i j =>
    F.dot (List.ofFn fun k => (P i k, F.mul (passageMatrixF F P t k j) (if k = j then 0 else 1)))

/-- `p / np.sum(p, axis=1, keepdims=True)`. -/
def normalizeRowsF (F : Arith K) {m n : ℕ} (M : Matrix (Fin m) (Fin n) K) : Matrix (Fin m) (Fin n) K :=
  fun i j => F.div (M i j) (F.sum (List.ofFn fun l => M i l))

/-- The matrix of `to_lazy_chain` (`generators.py:849-851`), every operation rounded by `fl`; the product of the
identity matrix with the weights is exact. -/
def lazyMatrixF (fl : K → K) {n : ℕ} (P : Matrix (Fin n) (Fin n) K) (w : Fin n → K) : Matrix (Fin n) (Fin n) K :=
  fun i j => fl (fl (fl (1 - w i) * P i j) + (if i = j then 1 else 0) * w j)

/-- The matrix of `merge_with` (`markov_chain.py:1642`), every operation rounded by `fl`. -/
def mergeMatrixF (fl : K → K) {n : ℕ} (P Q : Matrix (Fin n) (Fin n) K) (g : K) : Matrix (Fin n) (Fin n) K :=
  fun i j => fl (fl (fl (1 - g) * P i j) + fl (g * Q i j))

/-- An order in which copies of a matrix are multiplied. -/
inductive PowerTree
  | leaf
  | node (l r : PowerTree)

/-- The exponent. -/
def PowerTree.order : PowerTree → ℕ
  | .leaf => 1
  | .node l r => l.order + r.order

/-- The matrix power, calculated in this order (`np.linalg.matrix_power` in `markov_chain.py:2058` squares
repeatedly). -/
def PowerTree.eval (F : Arith K) {n : ℕ} (P : Matrix (Fin n) (Fin n) K) : PowerTree → Fin n → Fin n → K
  | .leaf => fun i j => P i j
  | .node l r => fun i j => F.dot (List.ofFn fun k => (l.eval F P i k, r.eval F P k j))

/-- The matrix that was squared `i` times. -/
def PowerTree.squares : ℕ → PowerTree
  | 0 => .leaf
  | i + 1 => .node (squares i) (squares i)

/-- The product so far times another matrix. -/
def PowerTree.times : Option PowerTree → PowerTree → PowerTree
  | none, t => t
  | some r, t => .node r t

/-- The loop of `np.linalg.matrix_power`: the bits of the exponent `k` that are left, after `i` squarings. -/
def PowerTree.binary : ℕ → ℕ → ℕ → Option PowerTree → Option PowerTree
  | 0, _, _, r => r
  | f + 1, k, i, r =>
    if k = 0 then r else binary f (k / 2) (i + 1) (if k % 2 = 1 then some (times r (squares i)) else r)

/-- `np.linalg.matrix_power` for a positive exponent; the exponent three is treated separately. -/
def PowerTree.numpy (k : ℕ) : PowerTree :=
  if k = 3 then .node (.node .leaf .leaf) .leaf else (binary k k 0 none).getD .leaf

/-- The exponent in `is_regular` (`markov_chain.py:706-712`). -/
def regularExponent (c : MC K) : ℕ :=
  let nz := ((List.finRange c.n).filter fun i => c.p i i ≠ 0).length
  if nz > 0 then 2 * c.n - nz - 1 else c.n ^ c.n - 2 * c.n + 2

/-- `is_regular` (`markov_chain.py:700-716`). -/
def isRegularF (F : Arith K) (c : MC K) : Bool :=
  decide (∀ i j, 0 < (PowerTree.numpy (regularExponent c)).eval F c.p i j)

/-! ## Lumping -/

/-- `np.dot` of two matrices. -/
def matMulF (F : Arith K) {m n k : ℕ} (A : Fin m → Fin n → K) (B : Fin n → Fin k → K) : Fin m → Fin k → K :=
  fun i j => F.dot (List.ofFn fun l => (A i l, B l j))

/-- The product of the transposed indicator matrix and the indicator matrix. -/
def groupGramF (F : Arith K) {n : ℕ} (g : List (List (Fin n))) : Fin g.length → Fin g.length → K :=
  let r : Fin n → Fin g.length → K := indicator g
  matMulF F (fun a i => r i a) r

/-- The matrix `k` (`generators.py:867-870`, `computations.py:254-257`). No two groups have a state in common, so
the matrix to be inverted is diagonal, and the inversion takes the reciprocals of the diagonal. -/
def groupMeansF (F : Arith K) {n : ℕ} (g : List (List (Fin n))) : Fin g.length → Fin n → K :=
  let r : Fin n → Fin g.length → K := indicator g
  matMulF F (fun a b => if a = b then F.div 1 (groupGramF F g a a) else 0) (fun a i => r i a)

/-- The test for lumpability (`generators.py:869-876`, `computations.py:256-263`). The inversion fails if there is
a zero on the diagonal. -/
def lumpableF (F : Arith K) {n : ℕ} (P : Matrix (Fin n) (Fin n) K) (g : List (List (Fin n))) : Bool :=
  let r : Fin n → Fin g.length → K := indicator g
  decide (∀ a, groupGramF F g a a ≠ 0) && decide (∀ i a, matMulF F (matMulF F (matMulF F r (groupMeansF F g)) fun i j => P i j) r i a =
    matMulF F (fun i j => P i j) r i a)

/-- `mc_lump` (`generators.py:857-884`). -/
def mcLumpF (F : Arith K) (c : MC K) (g : List (List (Fin c.n))) : R (MC K) :=
  if lumpableF F c.p g then
    pure ⟨g.length, matMulF F (matMulF F (groupMeansF F g) fun i j => c.p i j) (indicator g),
      g.map fun C => ",".intercalate (C.map c.label)⟩
  else throw .valueError

/-- `lump` (`markov_chain.py:1484-1511`). -/
def lumpF (F : Arith K) (c : MC K) (partitions : PyVal K) : R (MC K) :=
  validatePartitions partitions c.states >>= fun g =>
    if c.n = 2 then throw .valueError else mcLumpF F c (g.map (toStates c.n))

/-- `find_lumping_partitions` (`computations.py:214-268`), `lumping_partitions`
(`markov_chain.py:791-800`). -/
def lumpingPartitionsF (F : Arith K) (c : MC K) : List (List (List (Fin c.n))) :=
  if c.n = 2 then [] else (possiblePartitions c.n).filter (lumpableF F c.p)

/-! ## Monotonicity -/

/-- `is_stochastically_monotone` (`markov_chain.py:738-759`). -/
def isMonotoneF (F : Arith K) (c : MC K) : Bool :=
  decide (∀ m : Fin c.n, 1 ≤ m.val → ∀ k l : Fin c.n, k.val + 1 = l.val →
    ¬ F.sum (((List.finRange c.n).filter fun j => decide (m ≤ j)).map fun j => c.p l j) <
      F.sum (((List.finRange c.n).filter fun j => decide (m ≤ j)).map fun j => c.p k j))

/-! ## Decoding -/

/-- One column of the forward recursion before it is scaled (`measures.py:76-77`). -/
def forwardStepF (F : Arith K) {n k : ℕ} (P : Matrix (Fin n) (Fin n) K) (E : Matrix (Fin n) (Fin k) K)
    (f : Fin n → K) (y : Fin k) : Fin n → K :=
  fun s => F.mul (E s y) (F.sum (List.ofFn fun i => F.mul (f i) (P i s)))

/-- The forward loop (`measures.py:71-85`). -/
def forwardLoopF (F : Arith K) {n k : ℕ} (P : Matrix (Fin n) (Fin n) K) (E : Matrix (Fin n) (Fin k) K) :
    (Fin n → K) → List (Fin k) → Option (List ((Fin n → K) × K))
  | _, [] => some []
  | f, y :: ys =>
    let a := forwardStepF F P E f y
    let c := F.sum (List.ofFn a)
    if c < 1 / 10 ^ 300 then none
    else (forwardLoopF F P E (fun s => F.div (a s) c) ys).map ((fun s => F.div (a s) c, c) :: ·)

/-- One column of the backward recursion (`measures.py:91-97`). -/
def backwardStepF (F : Arith K) {n k : ℕ} (P : Matrix (Fin n) (Fin n) K) (E : Matrix (Fin n) (Fin k) K)
    (y : Fin k) (c : K) (b : Fin n → K) : Fin n → K :=
  fun s => F.mul (F.div 1 c) (F.sum (List.ofFn fun j => F.mul (F.mul (P s j) (b j)) (E j y)))

/-- The backward loop (`measures.py:87-97`). -/
def backwardLoopF (F : Arith K) {n k : ℕ} (P : Matrix (Fin n) (Fin n) K) (E : Matrix (Fin n) (Fin k) K) :
    List (Fin k × K) → List (Fin n → K)
  | [] => [fun _ => 1]
  | (y, c) :: t =>
    let r := backwardLoopF F P E t
    backwardStepF F P E y c (r.headD fun _ => 1) :: r

/-- `hmm_decode` with scaling, without the logarithm (`measures.py:58-100`). -/
def decodeScaledF (F : Arith K) {n k : ℕ} (P : Matrix (Fin n) (Fin n) K) (E : Matrix (Fin n) (Fin k) K)
    (init : Fin n → K) (symbols : List (Fin k)) : Option (Decoding K n) :=
  (forwardLoopF F P E init symbols).map fun fw =>
    let forward := init :: fw.map Prod.fst
    let backward := backwardLoopF F P E (symbols.zip (fw.map Prod.snd))
    { posterior := (List.zipWith (fun b f s => F.mul (b s) (f s)) backward forward).tail
      backward := backward
      forward := forward
      factors := 1 :: fw.map Prod.snd }

end Verif
