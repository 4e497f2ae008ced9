import Verif.Props.HiddenConsistency
import Verif.Props.Viterbi

/-!
# Decoding of simulated runs (C131)

`HiddenMarkovModel.decode` (`hidden_markov_model.py:291-317`) computes with sums over hidden paths;
here its results are read as probabilities of what `simulate` (`hidden_markov_model.py:448-481`) returns.
-/

set_option linter.unusedSectionVars false

namespace Verif

open Finset MeasureTheory

variable {n k : ℕ}

/-- The expectation of a function of the states on the event that the symbols are given. -/
theorem expect_emitted (P : Fin n → Fin n → ℝ) (E : Fin n → Fin k → ℝ) (s : ℕ) :
    ∀ (a : Fin n × Fin k) (ys : List (Fin k)) (F : List (Fin n) → ℝ), ys.length = s →
      expect (pairChain P E) s a (fun w => if w.map Prod.snd = ys then F (w.map Prod.fst) else 0) =
        expect P s a.1 fun w => F w * emitProb E w ys := by
  induction s with
  | zero =>
    intro a ys F h
    obtain rfl := List.length_eq_zero_iff.1 h
    simp [expect, emitProb]
  | succ s ih =>
    intro a ys F h
    obtain ⟨y, ys, rfl⟩ : ∃ y ys', ys = y :: ys' := by
      cases ys with
      | nil => simp at h
      | cons y ys => exact ⟨y, ys, rfl⟩
    have hlen : ys.length = s := by simpa using h
    simp only [expect]
    rw [Fintype.sum_prod_type]
    refine sum_congr rfl fun b _ => ?_
    rw [sum_eq_single y]
    · have h1 : ∀ w : List (Fin n × Fin k), (if ((b, y) :: w).map Prod.snd = y :: ys then
          F (((b, y) :: w).map Prod.fst) else 0) =
          if w.map Prod.snd = ys then (fun l => F (b :: l)) (w.map Prod.fst) else 0 := by
        intro w
        simp
      simp only [h1]
      rw [ih (b, y) ys (fun l => F (b :: l)) hlen]
      have h2 : ∀ w : List (Fin n), F (b :: w) * emitProb E (b :: w) (y :: ys) =
          E b y * (F (b :: w) * emitProb E w ys) := by
        intro w
        simp only [emitProb]
        ring
      simp only [h2]
      rw [expect_smul]
      simp only [pairChain]
      ring
    · intro y' _ hy
      have h1 : ∀ w : List (Fin n × Fin k), (if ((b, y') :: w).map Prod.snd = y :: ys then
          F (((b, y') :: w).map Prod.fst) else 0) = 0 := by
        intro w
        simp [hy]
      simp only [h1]
      rw [expect_zero, mul_zero]
    · simp

theorem prob_emitted (P : Fin n → Fin n → ℝ) (E : Fin n → Fin k → ℝ) {s : ℕ} (a : Fin n × Fin k)
    {ys : List (Fin k)} (h : ys.length = s) :
    prob (pairChain P E) s a (fun w => w.map Prod.snd = ys) =
      expect P s a.1 fun w => emitProb E w ys := by
  have := expect_emitted P E s a ys (fun _ => 1) h
  simpa [prob] using this

theorem prob_emitted_at (P : Fin n → Fin n → ℝ) (E : Fin n → Fin k → ℝ) {s : ℕ} (a : Fin n × Fin k)
    {ys : List (Fin k)} (h : ys.length = s) (t : ℕ) (x : Fin n) :
    prob (pairChain P E) s a (fun w => w.map Prod.snd = ys ∧ (w.map Prod.fst)[t]? = some x) =
      expect P s a.1 fun w => if w[t]? = some x then emitProb E w ys else 0 := by
  have := expect_emitted P E s a ys (fun w => if w[t]? = some x then 1 else 0) h
  unfold prob
  simp only [ite_and]
  refine this.trans ?_
  congr 1
  funext w
  split_ifs <;> simp

theorem expect_emit_cons (P : Fin n → Fin n → ℝ) (E : Fin n → Fin k → ℝ) (a : Fin n) (y : Fin k)
    (ys : List (Fin k)) : expect P (y :: ys).length a (fun w => emitProb E w (y :: ys)) =
      ∑ b, P a b * (E b y * expect P ys.length b fun w => emitProb E w ys) := by
  simp only [List.length_cons, expect, emitProb, expect_smul]

/-- The probability of the symbols is at most the probability of the first ones. -/
theorem expect_emit_take {P : Fin n → Fin n → ℝ} {E : Fin n → Fin k → ℝ} (hP : IsStochastic P)
    (hE : IsStochastic E) (ys : List (Fin k)) : ∀ (t : ℕ) (a : Fin n),
      0 ≤ expect P ys.length a (fun w => emitProb E w ys) ∧
      expect P ys.length a (fun w => emitProb E w ys) ≤
        expect P (ys.take t).length a fun w => emitProb E w (ys.take t) := by
  induction ys with
  | nil => intro t a; simp [expect, emitProb]
  | cons y ys ih =>
    intro t a
    have h1 : ∀ b, E b y ≤ 1 := fun b => (hE.2 b) ▸ single_le_sum (fun j _ => hE.1 b j) (mem_univ y)
    rw [expect_emit_cons]
    refine ⟨sum_nonneg fun b _ => mul_nonneg (hP.1 a b) (mul_nonneg (hE.1 b y) (ih 0 b).1), ?_⟩
    cases t with
    | zero =>
      have h2 : ∀ b, expect P ys.length b (fun w => emitProb E w ys) ≤ 1 := fun b =>
        (ih 0 b).2.trans_eq (by simp [expect, emitProb])
      have h3 : expect P ((y :: ys).take 0).length a (fun w => emitProb E w ((y :: ys).take 0)) = 1 := by
        simp [expect, emitProb]
      rw [h3, ← hP.2 a]
      refine sum_le_sum fun b _ => mul_le_of_le_one_right (hP.1 a b) ?_
      exact mul_le_one₀ (h1 b) (ih 0 b).1 (h2 b)
    | succ t =>
      rw [List.take_succ_cons, expect_emit_cons]
      exact sum_le_sum fun b _ => mul_le_mul_of_nonneg_left
        (mul_le_mul_of_nonneg_left (ih t b).2 (hE.1 b y)) (hP.1 a b)

/-- The symbols after the first one, and the states that emit them, have the probabilities of the
specification. -/
theorem simulated_symbols {m : HMM ℝ} (hm : m.Valid) (hn : 0 < m.n) (hk : 0 < m.k) [NeZero m.k]
    {steps : PyVal ℝ} {ys : List (Fin m.k)}
    (hsteps : validateInteger steps (some (2, false)) none = .ok (ys.length : ℤ)) :
    ∃ run : Fin m.n → ℝ × (ℕ → ℝ × ℝ) → List (Fin m.n × Fin m.k),
      (∀ start ω, m.simulate hn hk (cdfChoice fun _ => ω.1) (fun t => (ω.2 t).1) (fun t => (ω.2 t).2)
        start steps .none .none .none = .ok (run start ω)) ∧
      ∀ init : Fin m.n → ℝ,
        ∑ a, init a * (hiddenDraws {ω | (run a ω).tail.map Prod.snd = ys}).toReal =
          likelihood m.p m.e init ys ∧
        ∀ t x, ∑ a, init a * (hiddenDraws {ω | (run a ω).tail.map Prod.snd = ys ∧
          ((run a ω).tail.map Prod.fst)[t]? = some x}).toReal = jointAt m.p m.e init ys t x := by
  have hP := hm.2.2.1
  have hE := hm.2.2.2.1
  have hQ := pairChain_stochastic (P := m.p) (E := m.e) hP hE
  choose run hrun hlaw using fun start : Fin m.n => C117_simulate hm hn hk start hsteps
    (i := none) (f := none) (g := none) (initialState := .none) (finalState := .none) (finalSymbol := .none)
    (Or.inl ⟨rfl, rfl⟩) (Or.inl ⟨rfl, rfl⟩) (Or.inl ⟨rfl, rfl⟩)
  simp only [Option.getD_none, stopAt_never, Int.toNat_natCast] at hlaw
  have key : ∀ (a : Fin m.n) (A : List (Fin m.n × Fin m.k) → Prop) [DecidablePred A] (v : ℝ),
      (∀ y, prob (pairChain m.p m.e) ys.length (a, y) A = v) →
      (hiddenDraws {ω | A (run a ω).tail}).toReal = v := by
    intro a A _ v hv
    have h := hlaw a fun w => A w.tail
    have h1 : ∑ y, m.e a y * prob (pairChain m.p m.e) ys.length (a, y) A = v := by
      refine (sum_congr rfl fun y _ => congrArg (m.e a y * ·) (hv y)).trans ?_
      rw [← sum_mul, hE.2 a, one_mul]
    refine (congrArg ENNReal.toReal (h.trans (congrArg ENNReal.ofReal h1))).trans ?_
    rw [ENNReal.toReal_ofReal]
    rw [← hv 0]
    exact prob_nonneg' hQ.1 _ _ _
  refine ⟨run, hrun, fun init => ⟨?_, fun t x => ?_⟩⟩
  · refine sum_congr rfl fun a _ => congrArg _ ?_
    exact key a (fun w => w.map Prod.snd = ys) _ fun y =>
      prob_emitted (fun i j => m.p i j) (fun i j => m.e i j) (a, y) rfl
  · refine sum_congr rfl fun a _ => congrArg _ ?_
    exact key a (fun w => w.map Prod.snd = ys ∧ (w.map Prod.fst)[t]? = some x) _ fun y =>
      prob_emitted_at (fun i j => m.p i j) (fun i j => m.e i j) (a, y) rfl t x

/-- C131. The start state of a run of `simulate` is weighted with the initial status `init` of `decode`,
and `decode` is called with the symbols after the first one. The logarithm that it returns is the
logarithm of the probability that the run emits these symbols, and its posterior probabilities are the
conditional probabilities of the states of the run given these symbols. It returns `None` only if the
symbols have a probability below `1e-300` (times the sum of the status, which may exceed one slightly). -/
theorem C131_decode {m : HMM ℝ} (hm : m.Valid) (hn : 0 < m.n) (hk : 0 < m.k) [NeZero m.k]
    {symbols status steps : PyVal ℝ} {l : List ℕ} {init : Fin m.n → ℝ} {ys : List (Fin m.k)}
    (hy : validateSequence symbols m.symbols = .ok l) (hys : ys = toStates m.k l)
    (hs : initialStatus status m.states m.n = .ok init)
    (hsteps : validateInteger steps (some (2, false)) none = .ok (ys.length : ℤ)) :
    ∃ run : Fin m.n → ℝ × (ℕ → ℝ × ℝ) → List (Fin m.n × Fin m.k),
      (∀ start ω, m.simulate hn hk (cdfChoice fun _ => ω.1) (fun t => (ω.2 t).1) (fun t => (ω.2 t).2)
        start steps .none .none .none = .ok (run start ω)) ∧
      (∀ b r, m.decode symbols status (.bool b) = .ok (some r) →
        ∑ a, init a * (hiddenDraws {ω | (run a ω).tail.map Prod.snd = ys}).toReal = Real.exp r.1 ∧
        r.2.posterior.length = ys.length ∧
        ∀ t (ht : t < r.2.posterior.length) x,
          ∑ a, init a * (hiddenDraws {ω | (run a ω).tail.map Prod.snd = ys ∧
            ((run a ω).tail.map Prod.fst)[t]? = some x}).toReal = r.2.posterior[t] x * Real.exp r.1) ∧
      (∀ b, m.decode symbols status (.bool b) = .ok none →
        ∑ a, init a * (hiddenDraws {ω | (run a ω).tail.map Prod.snd = ys}).toReal <
          max 1 (∑ a, init a) / 10 ^ 300) := by
  have hP := hm.2.2.1
  have hE := hm.2.2.2.1
  obtain ⟨run, hrun, hall⟩ := simulated_symbols hm hn hk hsteps
  obtain ⟨hlik, hjoint⟩ := hall init
  refine ⟨run, hrun, fun b r hr => ?_, fun b hb => ?_⟩
  · have hbig : ∀ t < ys.length, (if t = 0 then 1 else likelihood m.p m.e init (ys.take t)) / 10 ^ 300 ≤
        likelihood m.p m.e init (ys.take (t + 1)) := by
      by_contra hcon
      push Not at hcon
      rw [hys] at hcon
      have := (C56_none hy hs b).2 hcon
      rw [hr] at this
      cases this
    obtain ⟨-, h1, d, u, hd, hu, ⟨h2, h3, h4⟩, -⟩ := C56_decode_partial hm hy hs hys hbig
    have hr' : r.1 = Real.log (likelihood m.p m.e init ys) ∧ r.2.posterior = d.posterior := by
      cases b with
      | true =>
        rw [hd] at hr
        simp only [Except.ok.injEq, Option.some.injEq] at hr
        rw [← hr]
        exact ⟨rfl, rfl⟩
      | false =>
        rw [hu] at hr
        simp only [Except.ok.injEq, Option.some.injEq] at hr
        rw [← hr]
        exact ⟨rfl, h3⟩
    obtain ⟨hr1, hr2⟩ := hr'
    rw [hlik, hr1, Real.exp_log h1, hr2]
    refine ⟨rfl, h2, fun t ht x => ?_⟩
    rw [hjoint, (h4 t ht).2 x]
    field_simp
  · rw [hlik]
    obtain ⟨t, ht, h1⟩ := (C56_none hy hs b).1 hb
    rw [← hys] at ht h1
    have hinit := initialStatus_nonneg hm.2.2.2.2.1 hm.1 hs
    have htake : ∀ (zs : List (Fin m.k)) t,
        likelihood m.p m.e init zs ≤ likelihood m.p m.e init (zs.take t) := fun zs t =>
      sum_le_sum fun a _ => mul_le_mul_of_nonneg_left
        (expect_emit_take (P := fun i j => m.p i j) (E := fun i j => m.e i j) hP hE zs t a).2 (hinit a)
    refine (htake ys (t + 1)).trans_lt (h1.trans_le ?_)
    gcongr
    split_ifs
    · exact le_max_left _ _
    · refine le_trans ?_ (le_max_right _ _)
      refine (htake (ys.take t) 0).trans_eq ?_
      simp [likelihood, expect, emitProb]

/-- C131, predictions. No other state than the one that `predict` names for a symbol with the method
`map` is more likely to have emitted it, among the runs of `simulate` that emit these symbols after the
first one. -/
theorem C131_map {m : HMM ℝ} (hm : m.Valid) (hn : 0 < m.n) (hk : 0 < m.k) [NeZero m.k] {rnd : ℝ → ℝ}
    {symbols status steps : PyVal ℝ} {l : List ℕ} {init : Fin m.n → ℝ} {ys : List (Fin m.k)}
    (hy : validateSequence symbols m.symbols = .ok l) (hys : ys = toStates m.k l)
    (hs : initialStatus status m.states m.n = .ok init)
    (hsteps : validateInteger steps (some (2, false)) none = .ok (ys.length : ℤ)) :
    ∃ run : Fin m.n → ℝ × (ℕ → ℝ × ℝ) → List (Fin m.n × Fin m.k),
      (∀ start ω, m.simulate hn hk (cdfChoice fun _ => ω.1) (fun t => (ω.2 t).1) (fun t => (ω.2 t).2)
        start steps .none .none .none = .ok (run start ω)) ∧
      ∀ v path, m.predict rnd (.str "map") symbols status = .ok (some (v, path)) →
        path.length = ys.length ∧ ∀ t (ht : t < path.length) x,
          ∑ a, init a * (hiddenDraws {ω | (run a ω).tail.map Prod.snd = ys ∧
            ((run a ω).tail.map Prod.fst)[t]? = some x}).toReal ≤
          ∑ a, init a * (hiddenDraws {ω | (run a ω).tail.map Prod.snd = ys ∧
            ((run a ω).tail.map Prod.fst)[t]? = some path[t]}).toReal := by
  obtain ⟨run, hrun, hall⟩ := simulated_symbols hm hn hk hsteps
  refine ⟨run, hrun, fun v path h => ?_⟩
  obtain ⟨-, -, h1, h2⟩ := C74_map hm hy hs hys h
  refine ⟨h1, fun t ht x => ?_⟩
  rw [(hall init).2, (hall init).2]
  exact h2 t ht x

/-- The hypotheses can be met: from a random start, two symbols of probability one third have
probability one ninth. -/
theorem C131_instance : ∃ run : Fin 2 → ℝ × (ℕ → ℝ × ℝ) → List (Fin 2 × Fin 2),
    (∀ start ω, (exCoin (1 / 3)).simulate (show 0 < 2 by decide) (show 0 < 2 by decide)
      (cdfChoice (n := 2) fun _ => ω.1) (fun t => (ω.2 t).1) (fun t => (ω.2 t).2)
        start (.int 2) .none .none .none = .ok (run start ω)) ∧
    ∑ a : Fin 2, (1 / 2) * (hiddenDraws {ω | (run a ω).tail.map Prod.snd = [0, 0]}).toReal = 1 / 9 := by
  have : NeZero (exCoin (1 / 3)).k := ⟨show (2 : ℕ) ≠ 0 by decide⟩
  obtain ⟨a1, a2, a3⟩ := exCoin_args (1 / 3)
  obtain ⟨d, hd⟩ := exCoin_decodes
  obtain ⟨run, h1, h2, -⟩ := C131_decode (exCoin_valid (x := 1 / 3) (by norm_num) (by norm_num))
    (show 0 < 2 by decide) (show 0 < 2 by decide) a1 a2.symm a3 (steps := .int 2) rfl
  refine ⟨run, h1, (h2 true _ hd).1.trans ?_⟩
  exact Real.exp_log (by norm_num)

end Verif
