import Verif.Props.HiddenFit
import Verif.Props.HiddenEstimate
import Verif.Props.Viterbi
import Mathlib.Tactic.FinCases
import Mathlib.Tactic.NormNum

/-!
# Property C156: fitting a hidden model by its predicted paths
-/

set_option linter.unusedSectionVars false
set_option linter.unusedSimpArgs false

namespace Verif

variable {n k : ℕ}

/-- Relative frequencies of the entries of a row, zero in a row without observations. -/
noncomputable def share {m : ℕ} (c : Fin n → Fin m → ℕ) (i : Fin n) (j : Fin m) : ℝ :=
  (c i j : ℝ) / (∑ l, c i l : ℕ)

/-- The sequences with a predicted path, together with the path. -/
noncomputable def predictedPaths (rnd : ℝ → ℝ) (t : String) (P : Matrix (Fin n) (Fin n) ℝ)
    (E : Matrix (Fin n) (Fin k) ℝ) (init : Fin n → ℝ) (l : List (List (Fin k))) :
    List (List (Fin n) × List (Fin k)) :=
  l.filterMap fun ys => (hmmPredict rnd t P E init ys).map fun r => (r.2, ys)

theorem normalizeOrNull_share {m : ℕ} (c : Fin n → Fin m → ℕ) (i : Fin n) (j : Fin m) :
    normalizeOrNull (fun i j => (c i j : ℝ)) i j = share c i j := by
  unfold normalizeOrNull share
  have e : ∑ l, (c i l : ℝ) = ((∑ l, c i l : ℕ) : ℝ) := by push_cast; rfl
  rw [e]
  split_ifs with h
  · rw [h, div_zero]
  · exact abs_of_nonneg (by positivity)

theorem hmmEstimate_share (w : List (Fin n)) (ys : List (Fin k)) (i : Fin n) :
    (∀ j, (hmmEstimate n k (w.map Fin.val) (ys.map Fin.val) false :
        Matrix (Fin n) (Fin n) ℝ × Matrix (Fin n) (Fin k) ℝ).1 i j = share (transitionCount w) i j) ∧
    ∀ j, (hmmEstimate n k (w.map Fin.val) (ys.map Fin.val) false :
        Matrix (Fin n) (Fin n) ℝ × Matrix (Fin n) (Fin k) ℝ).2 i j = share (emissionCount w ys) i j := by
  unfold hmmEstimate
  simp only [Bool.false_eq_true, if_false]
  have e1 : (fun i j => (countMatrix n (w.map Fin.val) i j : ℝ)) =
      fun i j => (transitionCount w i j : ℝ) := by
    funext i j; rw [countMatrix_eq]
  have e2 : (fun i j => (emissionMatrix n k (w.map Fin.val) (ys.map Fin.val) i j : ℝ)) =
      fun i j => (emissionCount w ys i j : ℝ) := by
    funext i j; rw [emissionMatrix_eq]
  constructor
  · intro j
    rw [← normalizeOrNull_share]
    exact congrArg (fun M => normalizeOrNull M i j) e1
  · intro j
    rw [← normalizeOrNull_share]
    exact congrArg (fun M => normalizeOrNull M i j) e2

theorem sum_share {m : ℕ} (c : Fin n → Fin m → ℕ) (i : Fin n) :
    ∑ j, share c i j = if 0 < ∑ j, c i j then 1 else 0 := by
  unfold share
  rw [← Finset.sum_div]
  have e : ∑ l, (c i l : ℝ) = ((∑ l, c i l : ℕ) : ℝ) := by push_cast; rfl
  rw [e]
  split_ifs with h
  · exact div_self (by positivity)
  · rw [Nat.eq_zero_of_not_pos h]; simp

theorem sum_shares {α : Type} {m : ℕ} (l : List α) (c : α → Fin n → Fin m → ℕ) (i : Fin n) :
    ∑ j, (l.map fun a => share (c a) i j).sum =
      ((l.countP fun a => decide (0 < ∑ j, c a i j) : ℕ) : ℝ) := by
  induction l with
  | nil => simp
  | cons a l ih =>
    simp only [List.map_cons, List.sum_cons, Finset.sum_add_distrib, ih, sum_share, List.countP_cons,
      decide_eq_true_eq]
    push_cast
    rw [add_comm]

/-- The counts of an iteration. -/
theorem fitPrediction_counts {rnd : ℝ → ℝ} {t : String} {init : Fin n → ℝ} (P : Matrix (Fin n) (Fin n) ℝ)
    (E : Matrix (Fin n) (Fin k) ℝ) (l : List (List (Fin k))) (i : Fin n) :
    (∀ j, (l.filterMap (fitPrediction rnd t P E init)).map (fun r => r.2.1 i j) =
      (predictedPaths rnd t P E init l).map fun q => share (transitionCount q.1) i j) ∧
    ∀ j, (l.filterMap (fitPrediction rnd t P E init)).map (fun r => r.2.2 i j) =
      (predictedPaths rnd t P E init l).map fun q => share (emissionCount q.1 q.2) i j := by
  unfold predictedPaths
  simp only [List.map_filterMap]
  constructor <;> intro j <;> congr 1 <;> funext ys <;> unfold fitPrediction <;>
    cases hmmPredict rnd t P E init ys with
  | none => rfl
  | some r => first
    | exact congrArg some ((hmmEstimate_share r.2 ys i).1 j)
    | exact congrArg some ((hmmEstimate_share r.2 ys i).2 j)

/-- C156, one iteration of `fit` of the types `map`, `mle` and `viterbi`. The new probability of a
transition (an emission) is the mean of its relative frequencies in the predicted paths, over the
sequences in whose path the state is left (occurs): every sequence has the same weight, however often
the state occurs in it. -/
theorem C156_iteration {rnd : ℝ → ℝ} {t : String} (ht : t ≠ "baum-welch") {init : Fin n → ℝ}
    {l : List (List (Fin k))} {x : ℝ × Matrix (Fin n) (Fin n) ℝ × Matrix (Fin n) (Fin k) ℝ}
    {q : List (List (Fin n) × List (Fin k))} (hq : q = predictedPaths rnd t x.2.1 x.2.2 init l) (i : Fin n) :
    (∀ j, (fitStep (fitFunc rnd t init) l x).2.1 i j =
      (q.map fun a => share (transitionCount a.1) i j).sum /
        (q.countP fun a => decide (0 < ∑ j, transitionCount a.1 i j) : ℕ)) ∧
    ∀ j, (fitStep (fitFunc rnd t init) l x).2.2 i j =
      (q.map fun a => share (emissionCount a.1 a.2) i j).sum /
        (q.countP fun a => decide (0 < ∑ j, emissionCount a.1 a.2 i j) : ℕ) := by
  have hf : fitFunc rnd t init x.2.1 x.2.2 = fitPrediction rnd t x.2.1 x.2.2 init := by
    unfold fitFunc
    rw [if_neg ht]
  obtain ⟨-, h2, h3⟩ := C73_step (fitFunc rnd t init) l x
  rw [hf] at h2 h3
  obtain ⟨c1, c2⟩ := fitPrediction_counts (rnd := rnd) (t := t) (init := init) x.2.1 x.2.2 l i
  constructor
  · intro j
    rw [h2 i j, Finset.sum_congr rfl fun l _ => by rw [c1 l], c1 j, ← hq,
      sum_shares q (fun a => transitionCount a.1) i]
  · intro j
    rw [h3 i j, Finset.sum_congr rfl fun l _ => by rw [c2 l], c2 j, ← hq,
      sum_shares q (fun a => emissionCount a.1 a.2) i]

theorem emitProb_length {ι κ : Type} (F : ι → κ → ℝ) {w : List ι} {ys : List κ}
    (h : w.length ≠ ys.length) : emitProb F w ys = 0 := by
  induction w generalizing ys with
  | nil => cases ys with
    | nil => simp at h
    | cons y ys => rfl
  | cons s w ih => cases ys with
    | nil => rfl
    | cons y ys =>
      rw [emitProb, ih (by simpa using h), mul_zero]

/-- One sequence: no matrices give the predicted path and the symbols a larger probability. -/
theorem single_optimal {rnd : ℝ → ℝ} {t : String} (ht : t ≠ "baum-welch") {init : Fin n → ℝ}
    {ys : List (Fin k)} {x : ℝ × Matrix (Fin n) (Fin n) ℝ × Matrix (Fin n) (Fin k) ℝ}
    {v : WithBot ℝ} {w : List (Fin n)} (hw : hmmPredict rnd t x.2.1 x.2.2 init ys = some (v, w))
    {Q : Fin n → Fin n → ℝ} {F : Fin n → Fin k → ℝ} (hQ : IsStochastic Q) (hF : IsStochastic F) :
    walkProb Q w * emitProb F w ys ≤
      walkProb (fun i j => (fitStep (fitFunc rnd t init) [ys] x).2.1 i j) w *
        emitProb (fun i j => (fitStep (fitFunc rnd t init) [ys] x).2.2 i j) w ys := by
  have hq : [(w, ys)] = predictedPaths rnd t x.2.1 x.2.2 init [ys] := by
    unfold predictedPaths
    rw [List.filterMap_cons, hw]
    rfl
  by_cases hlen : w.length = ys.length
  · have e1 : ∀ i, 0 < ∑ j, transitionCount w i j → ∀ j,
        (fitStep (fitFunc rnd t init) [ys] x).2.1 i j =
          (transitionCount w i j : ℝ) / (∑ l, transitionCount w i l : ℕ) := by
      intro i hi j
      rw [(C156_iteration ht hq i).1 j]
      simp [List.countP_cons, hi, share]
    have e2 : ∀ i, 0 < ∑ j, emissionCount w ys i j → ∀ j,
        (fitStep (fitFunc rnd t init) [ys] x).2.2 i j =
          (emissionCount w ys i j : ℝ) / (∑ l, emissionCount w ys i l : ℕ) := by
      intro i hi j
      rw [(C156_iteration ht hq i).2 j]
      simp [List.countP_cons, hi, share]
    have nn : ∀ i j, 0 ≤ (fitStep (fitFunc rnd t init) [ys] x).2.1 i j := by
      intro i j
      rw [(C156_iteration ht hq i).1 j]
      simp only [share, List.map_cons, List.map_nil, List.sum_cons, List.sum_nil]
      positivity
    rw [walkProb_eq_prod, walkProb_eq_prod, emitProb_eq_prod F hlen, emitProb_eq_prod _ hlen]
    refine mul_le_mul (counts_optimal _ hQ e1) (counts_optimal _ hF e2) ?_ ?_
    · exact Finset.prod_nonneg fun i _ => Finset.prod_nonneg fun j _ => pow_nonneg (hF.1 i j) _
    · exact Finset.prod_nonneg fun i _ => Finset.prod_nonneg fun j _ => pow_nonneg (nn i j) _
  · rw [emitProb_length F hlen, emitProb_length _ hlen, mul_zero, mul_zero]

/-- C156, one sequence. A model returned by `fit` of the types `map`, `mle` and `viterbi` for one sequence
of symbols maximises the probability of the symbols and of the hidden path (from its first state on)
that is predicted by matrices within the tolerance of those of the model. Restriction: one sequence. -/
theorem C156_fit_partial {rnd : ℝ → ℝ} {type possibleStates possibleSymbols pGuess eGuess symbols
    status : PyVal ℝ} {m : HMM ℝ}
    (h : hmmFitApi rnd type possibleStates possibleSymbols pGuess eGuess symbols status = .ok m)
    (ht : type ≠ .str "baum-welch") :
    ∃ t l P E init, FitArguments type pGuess eGuess symbols status m t l P E init ∧
    ∀ s, l = [s] → ∃ (P₀ : Matrix (Fin m.n) (Fin m.n) ℝ) (E₀ : Matrix (Fin m.n) (Fin m.k) ℝ)
        (v : WithBot ℝ) (w : List (Fin m.n)),
      (∀ i, (∑ j, |m.p i j - P₀ i j|) / m.n < 1 / 10 ^ 6) ∧
      (∀ i, (∑ j, |m.e i j - E₀ i j|) / m.k < 1 / 10 ^ 6) ∧
      hmmPredict rnd t P₀ E₀ init (toStates m.k s) = some (v, w) ∧
      ∀ (Q : Fin m.n → Fin m.n → ℝ) (F : Fin m.n → Fin m.k → ℝ), IsStochastic Q → IsStochastic F →
        walkProb Q w * emitProb F w (toStates m.k s) ≤
          walkProb m.p w * emitProb m.e w (toStates m.k s) := by
  obtain ⟨hn, -⟩ := hmmFitApi_ok h
  obtain ⟨-, -, t, l, P, E, init, hargs, x, j, hj, hx0, hx, hm, hdef, hconv⟩ := C73_stochastic h
  refine ⟨t, l, P, E, init, hargs, ?_⟩
  rintro s rfl
  have htb : t ≠ "baum-welch" := by
    rintro rfl
    apply ht
    have := hargs.type_eq
    unfold validateEnumerator at this
    split at this
    · next s =>
      split_ifs at this
      · simp only [pure, Except.pure, Except.ok.injEq] at this
        rw [this]
    · cases this
  obtain ⟨c1, c2, c3⟩ := (hconv j le_rfl).2 rfl
  have hd := hdef j le_rfl
  have hx' := hx j
  cases hp : hmmPredict rnd t (x j).2.1 (x j).2.2 init (toStates m.k s) with
  | none =>
    exfalso
    refine hd.1 ⟨0, by omega⟩ ?_
    have hf : fitFunc rnd t init (x j).2.1 (x j).2.2 (toStates m.k s) = none := by
      unfold fitFunc
      rw [if_neg htb]
      unfold fitPrediction
      rw [hp]
      rfl
    rw [List.map_cons, List.map_nil, List.map_cons, List.map_nil, hf]
    simp [sumResults, addResult]
  | some r =>
    refine ⟨(x j).2.1, (x j).2.2, r.1, r.2, ?_, ?_, hp, ?_⟩
    · have : (x (j + 1)).2.1 = m.p := congrArg Prod.fst hm
      rw [← this]
      exact c2
    · have : (x (j + 1)).2.2 = m.e := congrArg Prod.snd hm
      rw [← this]
      exact c3
    · intro Q F hQ hF
      have := single_optimal htb (init := init) (x := x j) hp hQ hF
      have hl : ([s] : List (List ℕ)).map (toStates m.k) = [toStates m.k s] := rfl
      rw [hl] at hx'
      rw [← hx', hm] at this
      exact this

/-! ## Instances -/

/-- Following states that emit symbols of their own. -/
theorem viterbiLoop_forced {rnd : ℝ → ℝ} {P : Matrix (Fin 2) (Fin 2) ℝ} {omega : Fin 2 → WithBot ℝ}
    {s : Fin 2} (ho : ∀ j, omega j ≠ ⊥ ↔ j = s) {ys : List (Fin 2)}
    (hP : List.IsChain (fun a b => 0 < P a b) (s :: ys)) :
    ∃ (omega' : Fin 2 → WithBot ℝ) (f : List (Fin 2 → Fin 2)),
      viterbiLoop rnd P (clockE 2) omega ys = some (omega', f) ∧
      (∀ j, omega' j ≠ ⊥ ↔ j = ys.getLastD s) ∧ backtrack f (ys.getLastD s) = s :: ys := by
  induction ys generalizing omega s with
  | nil => exact ⟨omega, [], rfl, ho, rfl⟩
  | cons y ys ih =>
    rw [List.isChain_cons_cons] at hP
    obtain ⟨hsy, hP⟩ := hP
    have cand : ∀ i, viterbiCandidates rnd P omega y i ≠ ⊥ ↔ i = s := by
      intro i
      unfold viterbiCandidates
      rw [Ne, WithBot.map_eq_bot_iff, WithBot.add_eq_bot, not_or]
      constructor
      · exact fun h => (ho i).1 h.1
      · rintro rfl
        exact ⟨(ho i).2 rfl, by rw [logBot_of_pos hsy]; exact WithBot.coe_ne_bot⟩
    have hmax : (firstMax (viterbiCandidates rnd P omega y)).getD y = s := by
      rw [← cand]
      have := firstMax_getD (viterbiCandidates rnd P omega y) y s
      intro hb
      rw [hb, le_bot_iff] at this
      exact (cand s).2 rfl this
    have hstep : ∀ j, (viterbiStep rnd P (clockE 2) omega y).1 j ≠ ⊥ ↔ j = y := by
      intro j
      unfold viterbiStep
      rw [Ne, WithBot.add_eq_bot, not_or]
      constructor
      · rintro ⟨-, h⟩
        by_contra hne
        apply h
        unfold logBot clockE
        rw [if_neg]
        rw [if_neg fun h => hne (Fin.ext h)]
        exact lt_irrefl _
      · rintro rfl
        refine ⟨?_, ?_⟩
        · change viterbiCandidates rnd P omega j
            ((firstMax (viterbiCandidates rnd P omega j)).getD j) ≠ ⊥
          rw [hmax]
          exact (cand s).2 rfl
        · rw [logBot_of_pos (by simp [clockE])]
          exact WithBot.coe_ne_bot
    obtain ⟨o', f, h1, h2, h3⟩ := ih hstep hP
    refine ⟨o', (viterbiStep rnd P (clockE 2) omega y).2 :: f, ?_, ?_, ?_⟩
    · rw [viterbiLoop]
      rw [if_neg, h1]
      · rfl
      · intro hall
        exact (hstep y).2 rfl (hall y)
    · intro j
      rw [h2 j, List.getLastD_cons]
    · have e : (y :: ys).getLastD s = ys.getLastD y := List.getLastD_cons
      rw [e, backtrack, h3]
      change (viterbiStep rnd P (clockE 2) omega y).2 y :: y :: ys = _
      rw [show (viterbiStep rnd P (clockE 2) omega y).2 y = s from hmax]

/-- The predicted path is the only one with the symbols. -/
theorem predict_forced {rnd : ℝ → ℝ} {P : Matrix (Fin 2) (Fin 2) ℝ} {init : Fin 2 → ℝ} {y : Fin 2}
    {ys : List (Fin 2)} (hi : 0 < init y) (hy : 0 < P y y)
    (hP : List.IsChain (fun a b => 0 < P a b) (y :: ys)) :
    ∃ v, hmmPredict rnd "viterbi" P (clockE 2) init (y :: ys) = some (v, y :: ys) := by
  have ho : ∀ j, logBot (init j * clockE 2 j y) ≠ ⊥ ↔ j = y := by
    intro j
    constructor
    · intro h
      by_contra hne
      apply h
      unfold logBot clockE
      rw [if_neg fun h => hne (Fin.ext h), mul_zero, if_neg (lt_irrefl _)]
    · rintro rfl
      rw [logBot_of_pos (by simpa [clockE] using hi)]
      exact WithBot.coe_ne_bot
  obtain ⟨o1, f1, g1, g2, -⟩ := viterbiLoop_forced (rnd := rnd) ho (ys := y :: ys)
    (List.isChain_cons_cons.2 ⟨hy, hP⟩)
  rw [viterbiLoop] at g1
  split_ifs at g1 with hall
  rw [Option.map_eq_some_iff] at g1
  obtain ⟨⟨o2, f2⟩, g1, g3⟩ := g1
  have hstep : ∀ j, (viterbiStep rnd P (clockE 2) (fun j => logBot (init j * clockE 2 j y)) y).1 j ≠ ⊥ ↔
      j = y := by
    obtain ⟨o, f, e1, e2, -⟩ := viterbiLoop_forced (rnd := rnd) ho (ys := [y])
      (List.isChain_cons_cons.2 ⟨hy, List.isChain_singleton y⟩)
    rw [viterbiLoop] at e1
    rw [if_neg hall, viterbiLoop, Option.map_some, Option.some.injEq, Prod.mk.injEq] at e1
    rw [e1.1]
    exact e2
  obtain ⟨o3, f3, k1, k2, k3⟩ := viterbiLoop_forced (rnd := rnd) hstep hP
  rw [k1, Option.some.injEq, Prod.mk.injEq] at g1
  obtain ⟨rfl, rfl⟩ := g1
  have hmax : firstMax o3 = some (ys.getLastD y) := by
    obtain ⟨j, hj⟩ := firstMax_some o3 (by norm_num)
    rw [hj, Option.some.injEq, ← k2]
    have := firstMax_max hj (ys.getLastD y)
    intro hb
    rw [hb, le_bot_iff] at this
    exact (k2 _).2 rfl this
  refine ⟨o3 (ys.getLastD y), ?_⟩
  unfold hmmPredict
  rw [if_neg (by decide)]
  unfold predictViterbi
  dsimp only
  rw [if_neg fun h => (ho y).2 rfl (h y), viterbiLoop]
  rw [if_neg hall, k1]
  simp only [Option.map_some, Option.bind_some, hmax, List.tail_cons, k3]

/-- The estimate from two sequences with the weights of `fit`. -/
noncomputable def evenP : Matrix (Fin 2) (Fin 2) ℝ := !![3 / 8, 5 / 8; 1, 0]

/-- The relative frequencies of the transitions in the two sequences. -/
noncomputable def pooledP : Matrix (Fin 2) (Fin 2) ℝ := !![3 / 5, 2 / 5; 1, 0]

/-- The two sequences. -/
def twoRuns : List (List (Fin 2)) := [[0, 0, 0, 0, 1, 0], [0, 1, 0]]

theorem twoRuns_paths {rnd : ℝ → ℝ} {P : Matrix (Fin 2) (Fin 2) ℝ} (h00 : 0 < P 0 0) (h01 : 0 < P 0 1)
    (h10 : 0 < P 1 0) :
    predictedPaths rnd "viterbi" P (clockE 2) (fun _ => 1 / 2) twoRuns =
      [([0, 0, 0, 0, 1, 0], [0, 0, 0, 0, 1, 0]), ([0, 1, 0], [0, 1, 0])] := by
  obtain ⟨v1, h1⟩ := predict_forced (rnd := rnd) (P := P) (init := fun _ => 1 / 2) (y := 0)
    (ys := [0, 0, 0, 1, 0]) (by norm_num) h00
    (by simp [List.isChain_cons_cons, h00, h01, h10])
  obtain ⟨v2, h2⟩ := predict_forced (rnd := rnd) (P := P) (init := fun _ => 1 / 2) (y := 0)
    (ys := [1, 0]) (by norm_num) h00
    (by simp [List.isChain_cons_cons, h00, h01, h10])
  unfold predictedPaths twoRuns
  rw [List.filterMap_cons, h1, List.filterMap_cons, h2]
  rfl

theorem twoRuns_step {rnd : ℝ → ℝ} {P : Matrix (Fin 2) (Fin 2) ℝ} (h00 : 0 < P 0 0) (h01 : 0 < P 0 1)
    (h10 : 0 < P 1 0) (ll : ℝ) :
    (fitStep (fitFunc rnd "viterbi" fun _ => 1 / 2) twoRuns (ll, P, clockE 2)).2 = (evenP, clockE 2) := by
  have hq := (twoRuns_paths (rnd := rnd) h00 h01 h10).symm
  have key := fun i => C156_iteration (rnd := rnd) (t := "viterbi") (by decide)
    (x := (ll, P, clockE 2)) hq i
  refine Prod.ext ?_ ?_
  · ext i j
    rw [(key i).1 j]
    fin_cases i <;> fin_cases j <;>
      simp [share, transitionCount, List.countP_cons, List.count_cons, evenP, Fin.sum_univ_two] <;> norm_num
  · ext i j
    rw [(key i).2 j]
    fin_cases i <;> fin_cases j <;>
      simp [share, emissionCount, List.countP_cons, List.count_cons, clockE, Fin.sum_univ_two]

/-- A fixed point of the iteration is returned from wherever it is reached. -/
theorem fitLoop_fixed {func : FitFunc n k} {symbols : List (List (Fin k))}
    {P : Matrix (Fin n) (Fin n) ℝ} {E : Matrix (Fin n) (Fin k) ℝ}
    (d1 : ∀ i, ∑ j, (sumResults (symbols.map (func P E))).2.1 i j ≠ 0)
    (d2 : ∀ i, ∑ j, (sumResults (symbols.map (func P E))).2.2 i j ≠ 0)
    (hf : ∀ ll, (fitStep func symbols (ll, P, E)).2 = (P, E)) (fuel : ℕ) (ll : ℝ) :
    fitLoop func symbols (fuel + 2) ll P E = .ok (P, E) := by
  have hP : normalizeRows (sumResults (symbols.map (func P E))).2.1 = P := congrArg Prod.fst (hf 0)
  have hE : normalizeRows (sumResults (symbols.map (func P E))).2.2 = E := congrArg Prod.snd (hf 0)
  have hc : ∀ ll : ℝ, checkConvergence ll ll P P E E := by
    intro ll
    refine ⟨by simp, fun i => by simp, fun i => by simp⟩
  rw [fitLoop]
  refine (if_neg (by push Not; exact d1)).trans ((if_neg (by push Not; exact d2)).trans ?_)
  rw [hP, hE]
  split_ifs
  · rfl
  · rw [fitLoop]
    refine (if_neg (by push Not; exact d1)).trans ((if_neg (by push Not; exact d2)).trans ?_)
    rw [hP, hE, if_pos (hc _)]
    rfl

theorem twoRuns_defined {rnd : ℝ → ℝ} {P : Matrix (Fin 2) (Fin 2) ℝ} (h00 : 0 < P 0 0) (h01 : 0 < P 0 1)
    (h10 : 0 < P 1 0) :
    (∀ i, ∑ j, (sumResults (twoRuns.map (fitFunc rnd "viterbi" (fun _ => 1 / 2) P (clockE 2)))).2.1 i j ≠
      0) ∧
    ∀ i, ∑ j, (sumResults (twoRuns.map (fitFunc rnd "viterbi" (fun _ => 1 / 2) P (clockE 2)))).2.2 i j ≠
      0 := by
  have hf : fitFunc rnd "viterbi" (fun _ => 1 / 2) P (clockE 2) =
      fitPrediction rnd "viterbi" P (clockE 2) (fun _ => 1 / 2) := by
    unfold fitFunc
    rw [if_neg (by decide)]
  obtain ⟨-, s2, s3⟩ := sumResults_eq
    (twoRuns.map (fitFunc rnd "viterbi" (fun _ => 1 / 2) P (clockE 2)))
  rw [List.filterMap_map, Function.id_comp, hf] at s2 s3
  have hc := fitPrediction_counts (rnd := rnd) (t := "viterbi") (init := fun _ => 1 / 2) P (clockE 2)
    twoRuns
  rw [hf]
  constructor
  · intro i
    rw [Finset.sum_congr rfl fun l _ => (s2 i l).trans (congrArg List.sum ((hc i).1 l)),
      twoRuns_paths h00 h01 h10,
      sum_shares _ (fun q : List (Fin 2) × List (Fin 2) => transitionCount q.1)]
    fin_cases i <;> simp [List.countP_cons, transitionCount, List.count_cons]
  · intro i
    rw [Finset.sum_congr rfl fun l _ => (s3 i l).trans (congrArg List.sum ((hc i).2 l)),
      twoRuns_paths h00 h01 h10,
      sum_shares _ (fun q : List (Fin 2) × List (Fin 2) => emissionCount q.1 q.2)]
    fin_cases i <;> simp [List.countP_cons, emissionCount, List.count_cons]

theorem evenP_entries : evenP 0 0 = 3 / 8 ∧ evenP 0 1 = 5 / 8 ∧ evenP 1 0 = 1 ∧ evenP 1 1 = 0 := by
  simp [evenP]

theorem pooledP_entries :
    pooledP 0 0 = 3 / 5 ∧ pooledP 0 1 = 2 / 5 ∧ pooledP 1 0 = 1 ∧ pooledP 1 1 = 0 := by
  simp [pooledP]

theorem twoRuns_fit (rnd : ℝ → ℝ) :
    hmmFit rnd "viterbi" pooledP (clockE 2) (fun _ => 1 / 2) twoRuns = .ok (evenP, clockE 2) := by
  obtain ⟨a1, a2, a3, a4⟩ := pooledP_entries
  obtain ⟨b1, b2, b3, b4⟩ := evenP_entries
  have hg : 0 < pooledP 0 0 ∧ 0 < pooledP 0 1 ∧ 0 < pooledP 1 0 := by
    rw [a1, a2, a3]; norm_num
  have he : 0 < evenP 0 0 ∧ 0 < evenP 0 1 ∧ 0 < evenP 1 0 := by
    rw [b1, b2, b3]; norm_num
  have hstep := twoRuns_step (rnd := rnd) hg.1 hg.2.1 hg.2.2 1
  obtain ⟨d1, d2⟩ := twoRuns_defined (rnd := rnd) hg.1 hg.2.1 hg.2.2
  obtain ⟨d3, d4⟩ := twoRuns_defined (rnd := rnd) he.1 he.2.1 he.2.2
  have hP : normalizeRows (sumResults (twoRuns.map
      (fitFunc rnd "viterbi" (fun _ => 1 / 2) pooledP (clockE 2)))).2.1 = evenP := congrArg Prod.fst hstep
  have hE : normalizeRows (sumResults (twoRuns.map
      (fitFunc rnd "viterbi" (fun _ => 1 / 2) pooledP (clockE 2)))).2.2 = clockE 2 :=
    congrArg Prod.snd hstep
  change fitLoop (fitFunc rnd "viterbi" fun _ => 1 / 2) twoRuns 500 1 pooledP (clockE 2) = _
  rw [fitLoop]
  refine (if_neg (by push Not; exact d1)).trans ((if_neg (by push Not; exact d2)).trans ?_)
  rw [hP, hE, if_neg]
  · exact fitLoop_fixed d3 d4 (fun ll => twoRuns_step he.1 he.2.1 he.2.2 ll) 497 _
  · rintro ⟨-, h, -⟩
    have := h 0
    rw [Fin.sum_univ_two, b1, b2, a1, a2] at this
    norm_num [abs_of_nonneg, abs_of_neg] at this

/-- C156 fails for several sequences. The guess has the relative frequencies of the transitions in the two
sequences of symbols, which tell the hidden states; `fit` moves away from it and returns a model that gives
both sequences a smaller probability: the second sequence counts as much as the first one, which is
longer. -/
theorem C156_unequal_lengths (rnd : ℝ → ℝ) : ∃ m : HMM ℝ,
    hmmFitApi rnd (.str "viterbi") (pyStrings ["a", "b"]) (pyStrings ["u", "v"])
      (pyMatrix pooledP) (pyMatrix (clockE 2))
      (.list [.list [.str "u", .str "u", .str "u", .str "u", .str "v", .str "u"],
        .list [.str "u", .str "v", .str "u"]]) .none = .ok m ∧
    m = ⟨2, 2, evenP, clockE 2, ["a", "b"], ["u", "v"]⟩ ∧
    (∀ P : Matrix (Fin 2) (Fin 2) ℝ, (twoRuns.map fun w =>
      walkProb (fun i j => P i j) w * emitProb (fun i j => clockE 2 i j) w w).prod =
        P 0 0 ^ 3 * P 0 1 ^ 2 * P 1 0 ^ 2) ∧
    evenP 0 0 ^ 3 * evenP 0 1 ^ 2 * evenP 1 0 ^ 2 < pooledP 0 0 ^ 3 * pooledP 0 1 ^ 2 * pooledP 1 0 ^ 2 ∧
    (twoRuns.map fun ys => likelihood (fun i j => evenP i j) (fun i j => clockE 2 i j)
      (fun _ => 1 / 2) ys).prod <
      (twoRuns.map fun ys => likelihood (fun i j => pooledP i j) (fun i j => clockE 2 i j)
        (fun _ => 1 / 2) ys).prod := by
  obtain ⟨a1, a2, a3, a4⟩ := pooledP_entries
  obtain ⟨b1, b2, b3, b4⟩ := evenP_entries
  have sP : IsStochastic pooledP := by
    constructor
    · intro i j
      fin_cases i <;> fin_cases j <;> simp [pooledP] <;> norm_num
    · intro i
      fin_cases i <;> simp [pooledP, Fin.sum_univ_two] <;> norm_num
  have sE := clockE_stochastic (k := 2) le_rfl
  refine ⟨_, ?_, rfl, ?_, ?_, ?_⟩
  · have c1 : validateTransitionMatrix (pyMatrix pooledP) (some 2) = .ok ⟨2, pooledP⟩ :=
      validateTransitionMatrix_some ((validateTransitionMatrix_iff pooledP _ (Or.inl rfl) _).2
        ⟨⟨le_rfl, fun i j => ⟨sP.1 i j, by
          fin_cases i <;> fin_cases j <;> simp [pooledP] <;> norm_num⟩, fun i => by
          rw [sP.2 i, sub_self, abs_zero]; positivity⟩, rfl⟩)
    have c2 : validateEmissionMatrix (pyMatrix (clockE 2)) 2 = .ok ⟨2, clockE 2⟩ :=
      (validateEmissionMatrix_iff (by norm_num) (clockE 2) _ (Or.inl rfl) _).2
        ⟨⟨le_rfl, fun i j => ⟨sE.1 i j, by unfold clockE; split_ifs <;> simp⟩, fun i => by
          rw [sE.2 i, sub_self, abs_zero]; positivity⟩, rfl⟩
    have c3 : validateLabelsInput (pyStrings ["a", "b"] : PyVal ℝ) none = .ok ["a", "b"] := rfl
    have c4 : validateLabelsInput (pyStrings ["u", "v"] : PyVal ℝ) none = .ok ["u", "v"] := rfl
    have c5 : validateSequencesFlex
        (.list [.list [.str "u", .str "u", .str "u", .str "u", .str "v", .str "u"],
          .list [.str "u", .str "v", .str "u"]] : PyVal ℝ) ["u", "v"] =
        .ok [[0, 0, 0, 0, 1, 0], [0, 1, 0]] := rfl
    have c6 : initialStatus (.none : PyVal ℝ) ["a", "b"] 2 = .ok fun _ => 1 / 2 :=
      (exCoin_args 0).2.2
    unfold hmmFitApi
    rw [show validateEnumerator (.str "viterbi" : PyVal ℝ) ["baum-welch", "map", "mle", "viterbi"] =
      .ok "viterbi" from rfl]
    rw [R.ok_bind, c3, R.ok_bind, c4, R.ok_bind, show (["a", "b"] : List String).length = 2 from rfl,
      c1, R.ok_bind]
    dsimp only
    rw [c2, R.ok_bind, c5, R.ok_bind, c6, R.ok_bind]
    refine (if_neg (by decide)).trans ((if_neg (by decide)).trans ?_)
    change (hmmFit rnd "viterbi" pooledP (clockE 2) _ twoRuns >>= _) = _
    rw [twoRuns_fit]
    rfl
  · intro P
    simp [twoRuns, walkProb, emitProb, clockE]
    ring
  · rw [a1, a2, a3, b1, b2, b3]; norm_num
  · simp only [twoRuns, List.map_cons, List.map_nil, List.prod_cons, List.prod_nil, likelihood,
      List.length_cons, List.length_nil, expect, emitProb, Fin.sum_univ_two, a1, a2, a3, a4, b1, b2, b3, b4,
      clockE]
    norm_num

/-- C156 fails for one sequence, too: the guess gives the symbols the probability one, `fit` of the type
`baum-welch` returns it (`clock_fit_api`), and `fit` of the type `viterbi` raises a `ValueError`, because
the start state cannot emit the first symbol. -/
theorem C156_certain_rejected (rnd : ℝ → ℝ) :
    likelihood (fun i j => clockP i j) (fun i j => clockE 2 i j) (fun s => if s = 0 then 1 else 0)
      ([1, 0] : List (Fin 2)) = 1 ∧
    hmmFitApi rnd (.str "baum-welch") (pyStrings ["a", "b"]) (pyStrings ["u", "v"])
      (pyMatrix clockP) (pyMatrix (clockE 2)) (.list [.str "v", .str "u"]) (.str "a") =
      .ok ⟨2, 2, clockP, clockE 2, ["a", "b"], ["u", "v"]⟩ ∧
    hmmFitApi rnd (.str "viterbi") (pyStrings ["a", "b"]) (pyStrings ["u", "v"])
      (pyMatrix clockP) (pyMatrix (clockE 2)) (.list [.str "v", .str "u"]) (.str "a") =
      .error .valueError := by
  refine ⟨?_, clock_fit_api rnd le_rfl, ?_⟩
  · simp [likelihood, expect, emitProb, Fin.sum_univ_two, clockP, clockE]
  · have sP := clockP_stochastic
    have sE := clockE_stochastic (k := 2) le_rfl
    have a1 : validateTransitionMatrix (pyMatrix clockP) (some 2) = .ok ⟨2, clockP⟩ :=
      validateTransitionMatrix_some ((validateTransitionMatrix_iff clockP _ (Or.inl rfl) _).2
        ⟨⟨le_rfl, fun i j => ⟨sP.1 i j, by unfold clockP; split_ifs <;> simp⟩, fun i => by
          rw [sP.2 i, sub_self, abs_zero]; positivity⟩, rfl⟩)
    have a2 : validateEmissionMatrix (pyMatrix (clockE 2)) 2 = .ok ⟨2, clockE 2⟩ :=
      (validateEmissionMatrix_iff (by norm_num) (clockE 2) _ (Or.inl rfl) _).2
        ⟨⟨le_rfl, fun i j => ⟨sE.1 i j, by unfold clockE; split_ifs <;> simp⟩, fun i => by
          rw [sE.2 i, sub_self, abs_zero]; positivity⟩, rfl⟩
    have a3 : validateLabelsInput (pyStrings ["a", "b"] : PyVal ℝ) none = .ok ["a", "b"] := rfl
    have a4 : validateLabelsInput (pyStrings ["u", "v"] : PyVal ℝ) none = .ok ["u", "v"] := rfl
    have a5 : validateSequencesFlex (.list [.str "v", .str "u"] : PyVal ℝ) ["u", "v"] = .ok [[1, 0]] :=
      rfl
    have a6 : initialStatus (.str "a" : PyVal ℝ) ["a", "b"] 2 = .ok fun s => if s = 0 then 1 else 0 := by
      have : initialStatus (.str "a" : PyVal ℝ) ["a", "b"] 2 = .ok (listVec (oneHot 2 0) 2) := rfl
      rw [this]
      refine congrArg Except.ok (funext fun i => ?_)
      fin_cases i <;> simp [listVec, oneHot]
    have hp : hmmPredict rnd "viterbi" clockP (clockE 2) (fun s => if s = 0 then 1 else 0)
        ([1, 0] : List (Fin 2)) = none := by
      unfold hmmPredict
      rw [if_neg (by decide)]
      unfold predictViterbi
      beta_reduce
      dsimp only
      rw [if_pos]
      intro j
      fin_cases j <;> simp [logBot, clockE]
    have hfit : hmmFit rnd "viterbi" clockP (clockE 2) (fun s => if s = 0 then 1 else 0)
        ([[1, 0]] : List (List (Fin 2))) = .error .valueError := by
      have hf : fitFunc rnd "viterbi" (fun s : Fin 2 => if s = 0 then 1 else 0) clockP (clockE 2)
          ([1, 0] : List (Fin 2)) = none := by
        unfold fitFunc
        rw [if_neg (by decide)]
        unfold fitPrediction
        rw [hp]
        rfl
      change fitLoop (fitFunc rnd "viterbi" _) _ 500 1 clockP (clockE 2) = _
      rw [fitLoop]
      refine (if_pos ⟨0, ?_⟩)
      rw [List.map_cons, List.map_nil, hf]
      simp [sumResults, addResult]
    unfold hmmFitApi
    rw [show validateEnumerator (.str "viterbi" : PyVal ℝ) ["baum-welch", "map", "mle", "viterbi"] =
      .ok "viterbi" from rfl]
    rw [R.ok_bind, a3, R.ok_bind, a4, R.ok_bind, show (["a", "b"] : List String).length = 2 from rfl,
      a1, R.ok_bind]
    dsimp only
    rw [a2, R.ok_bind, a5, R.ok_bind, a6, R.ok_bind]
    refine (if_neg (by decide)).trans ((if_neg (by decide)).trans ?_)
    change (hmmFit rnd "viterbi" clockP (clockE 2) _ [[1, 0]] >>= _) = _
    rw [hfit]
    rfl

/-- The estimate from one sequence. -/
noncomputable def oneP : Matrix (Fin 2) (Fin 2) ℝ := !![1 / 2, 1 / 2; 1, 0]

/-- The hypotheses of `C156_fit_partial` can be met with one sequence. -/
theorem C156_accepts (rnd : ℝ → ℝ) :
    hmmFitApi rnd (.str "viterbi") (pyStrings ["a", "b"]) (pyStrings ["u", "v"])
      (pyMatrix oneP) (pyMatrix (clockE 2)) (.list [.str "u", .str "u", .str "v", .str "u"]) .none =
      .ok ⟨2, 2, oneP, clockE 2, ["a", "b"], ["u", "v"]⟩ := by
  have b : oneP 0 0 = 1 / 2 ∧ oneP 0 1 = 1 / 2 ∧ oneP 1 0 = 1 ∧ oneP 1 1 = 0 := by simp [oneP]
  have h00 : 0 < oneP 0 0 := by rw [b.1]; norm_num
  have h01 : 0 < oneP 0 1 := by rw [b.2.1]; norm_num
  have h10 : 0 < oneP 1 0 := by rw [b.2.2.1]; norm_num
  have hq : [([0, 0, 1, 0], [0, 0, 1, 0])] =
      predictedPaths rnd "viterbi" oneP (clockE 2) (fun _ => 1 / 2) [[0, 0, 1, 0]] := by
    obtain ⟨v1, h1⟩ := predict_forced (rnd := rnd) (P := oneP) (init := fun _ => 1 / 2) (y := 0)
      (ys := [0, 1, 0]) (by norm_num) h00 (by simp [List.isChain_cons_cons, h00, h01, h10])
    unfold predictedPaths
    rw [List.filterMap_cons, h1]
    rfl
  have key := fun i => C156_iteration (rnd := rnd) (t := "viterbi") (by decide)
    (x := (1, oneP, clockE 2)) hq i
  have hstep : (fitStep (fitFunc rnd "viterbi" fun _ => 1 / 2) [[0, 0, 1, 0]] (1, oneP, clockE 2)).2 =
      (oneP, clockE 2) := by
    refine Prod.ext ?_ ?_
    · ext i j
      rw [(key i).1 j]
      fin_cases i <;> fin_cases j <;>
        simp [share, transitionCount, List.countP_cons, List.count_cons, oneP, Fin.sum_univ_two] <;> norm_num
    · ext i j
      rw [(key i).2 j]
      fin_cases i <;> fin_cases j <;>
        simp [share, emissionCount, List.countP_cons, List.count_cons, clockE, Fin.sum_univ_two]
  have hd : StepDefined (fitFunc rnd "viterbi" fun _ => 1 / 2) [[0, 0, 1, 0]] (1, oneP, clockE 2) := by
    have hf : fitFunc rnd "viterbi" (fun _ => 1 / 2) oneP (clockE 2) =
        fitPrediction rnd "viterbi" oneP (clockE 2) (fun _ => 1 / 2) := by
      unfold fitFunc
      rw [if_neg (by decide)]
    obtain ⟨-, s2, s3⟩ := sumResults_eq (([[0, 0, 1, 0]] : List (List (Fin 2))).map
      (fitFunc rnd "viterbi" (fun _ => 1 / 2) oneP (clockE 2)))
    rw [List.filterMap_map, Function.id_comp, hf] at s2 s3
    have hc := fitPrediction_counts (rnd := rnd) (t := "viterbi") (init := fun _ => 1 / 2) oneP
      (clockE 2) [[0, 0, 1, 0]]
    unfold StepDefined
    dsimp only
    rw [hf]
    constructor
    · intro i
      rw [Finset.sum_congr rfl fun l _ => (s2 i l).trans (congrArg List.sum ((hc i).1 l)), ← hq,
        sum_shares _ (fun q : List (Fin 2) × List (Fin 2) => transitionCount q.1)]
      fin_cases i <;> simp [List.countP_cons, transitionCount, List.count_cons]
    · intro i
      rw [Finset.sum_congr rfl fun l _ => (s3 i l).trans (congrArg List.sum ((hc i).2 l)), ← hq,
        sum_shares _ (fun q : List (Fin 2) × List (Fin 2) => emissionCount q.1 q.2)]
      fin_cases i <;> simp [List.countP_cons, emissionCount, List.count_cons]
  have hfit := hmmFit_fixed hd hstep
  have sP : IsStochastic oneP := by
    constructor
    · intro i j
      fin_cases i <;> fin_cases j <;> simp [oneP]
    · intro i
      fin_cases i <;> simp [oneP, Fin.sum_univ_two] <;> norm_num
  have sE := clockE_stochastic (k := 2) le_rfl
  have c1 : validateTransitionMatrix (pyMatrix oneP) (some 2) = .ok ⟨2, oneP⟩ :=
    validateTransitionMatrix_some ((validateTransitionMatrix_iff oneP _ (Or.inl rfl) _).2
      ⟨⟨le_rfl, fun i j => ⟨sP.1 i j, by
        fin_cases i <;> fin_cases j <;> simp [oneP] <;> norm_num⟩, fun i => by
        rw [sP.2 i, sub_self, abs_zero]; positivity⟩, rfl⟩)
  have c2 : validateEmissionMatrix (pyMatrix (clockE 2)) 2 = .ok ⟨2, clockE 2⟩ :=
    (validateEmissionMatrix_iff (by norm_num) (clockE 2) _ (Or.inl rfl) _).2
      ⟨⟨le_rfl, fun i j => ⟨sE.1 i j, by unfold clockE; split_ifs <;> simp⟩, fun i => by
        rw [sE.2 i, sub_self, abs_zero]; positivity⟩, rfl⟩
  have c3 : validateLabelsInput (pyStrings ["a", "b"] : PyVal ℝ) none = .ok ["a", "b"] := rfl
  have c4 : validateLabelsInput (pyStrings ["u", "v"] : PyVal ℝ) none = .ok ["u", "v"] := rfl
  have c5 : validateSequencesFlex (.list [.str "u", .str "u", .str "v", .str "u"] : PyVal ℝ) ["u", "v"] =
      .ok [[0, 0, 1, 0]] := rfl
  have c6 : initialStatus (.none : PyVal ℝ) ["a", "b"] 2 = .ok fun _ => 1 / 2 := (exCoin_args 0).2.2
  unfold hmmFitApi
  rw [show validateEnumerator (.str "viterbi" : PyVal ℝ) ["baum-welch", "map", "mle", "viterbi"] =
    .ok "viterbi" from rfl]
  rw [R.ok_bind, c3, R.ok_bind, c4, R.ok_bind, show (["a", "b"] : List String).length = 2 from rfl,
    c1, R.ok_bind]
  dsimp only
  rw [c2, R.ok_bind, c5, R.ok_bind, c6, R.ok_bind]
  refine (if_neg (by decide)).trans ((if_neg (by decide)).trans ?_)
  change (hmmFit rnd "viterbi" oneP (clockE 2) _ [[0, 0, 1, 0]] >>= _) = _
  rw [hfit]
  rfl

end Verif
