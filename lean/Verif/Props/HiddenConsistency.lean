import Verif.Props.LongRun
import Verif.Props.HiddenEstimate

/-!
# Estimation from simulated runs of hidden Markov models (C130)

`HiddenMarkovModel.estimate` (`hidden_markov_model.py:578-609`) applied to what `simulate` returns
recovers the transition and the emission probabilities.
-/

set_option linter.unusedSectionVars false

namespace Verif

open Finset MeasureTheory

variable {n k : ℕ}

/-! ## Paths of pairs -/

theorem pairChain_stochastic {P : Fin n → Fin n → ℝ} {E : Fin n → Fin k → ℝ} (hP : IsStochastic P)
    (hE : IsStochastic E) : IsStochastic (pairChain P E) := by
  refine ⟨fun a b => mul_nonneg (hP.1 _ _) (hE.1 _ _), fun a => ?_⟩
  rw [Fintype.sum_prod_type]
  simp only [pairChain, ← mul_sum]
  simp [hE.2, hP.2]

/-- The states of the chain of pairs are a path of the chain of states. -/
theorem expect_pairs (P : Fin n → Fin n → ℝ) {E : Fin n → Fin k → ℝ} (hE : IsStochastic E) (s : ℕ) :
    ∀ (a : Fin n × Fin k) (F : List (Fin n) → ℝ),
      expect (pairChain P E) s a (fun w => F (w.map Prod.fst)) = expect P s a.1 F := by
  induction s with
  | zero => intro a F; rfl
  | succ s ih =>
    intro a F
    simp only [expect]
    rw [Fintype.sum_prod_type]
    refine sum_congr rfl fun b _ => ?_
    have : ∀ y, pairChain P E a (b, y) * expect (pairChain P E) s (b, y)
          (fun l => F (((b, y) :: l).map Prod.fst)) = P a.1 b * expect P s b (fun l => F (b :: l)) * E b y := by
      intro y
      rw [show (fun l : List (Fin n × Fin k) => F (((b, y) :: l).map Prod.fst)) =
        fun l => (fun l' => F (b :: l')) (l.map Prod.fst) from rfl, ih (b, y) fun l' => F (b :: l')]
      simp only [pairChain]
      ring
    simp only [this]
    rw [← mul_sum, hE.2 b, mul_one]

theorem prob_pairs (P : Fin n → Fin n → ℝ) {E : Fin n → Fin k → ℝ} (hE : IsStochastic E) (s : ℕ)
    (a : Fin n × Fin k) (A : List (Fin n) → Prop) [DecidablePred A] :
    prob (pairChain P E) s a (fun w => A (w.map Prod.fst)) = prob P s a.1 A :=
  expect_pairs P hE s a fun w => if A w then 1 else 0

theorem moveSum_all {ι : Type*} (φ : ι → ℝ) (a : ι) (l : List ι) :
    moveSum (fun a _ => φ a) (a :: l) + φ (l.getLastD a) = ((a :: l).map φ).sum := by
  induction l generalizing a with
  | nil => simp [moveSum]
  | cons b l ih =>
    have h := ih b
    simp only [moveSum, List.getLastD_cons, List.map_cons, List.sum_cons] at h ⊢
    rw [add_assoc, h]

theorem zip_pairs (w : List (Fin n × Fin k)) : (w.map Prod.fst).zip (w.map Prod.snd) = w := by
  induction w with
  | nil => rfl
  | cons a w ih => simp [ih]

theorem emissionCount_pairs (w : List (Fin n × Fin k)) (i : Fin n) (j : Fin k) :
    emissionCount (w.map Prod.fst) (w.map Prod.snd) i j = w.count (i, j) := by
  rw [emissionCount, zip_pairs]

theorem emissionCount_sum (w : List (Fin n × Fin k)) (i : Fin n) :
    ∑ j, emissionCount (w.map Prod.fst) (w.map Prod.snd) i j = (w.map Prod.fst).count i := by
  simp only [emissionCount_pairs]
  induction w with
  | nil => simp
  | cons a w ih =>
    obtain ⟨b, y⟩ := a
    simp only [List.count_cons, List.map_cons, sum_add_distrib, ih, beq_iff_eq, Prod.mk.injEq]
    congr 1
    by_cases h : b = i <;> simp [h]

theorem count_emissions (i : Fin n) (j : Fin k) (p : ℝ) (w : List (Fin n × Fin k)) :
    (w.count (i, j) : ℝ) - p * ((w.map Prod.fst).count i : ℝ) =
      (w.map fun a => if a.1 = i then (if a.2 = j then 1 else 0) - p else 0).sum := by
  induction w with
  | nil => simp
  | cons a w ih =>
    obtain ⟨b, y⟩ := a
    simp only [List.count_cons, List.map_cons, List.sum_cons, ← ih, beq_iff_eq, Prod.mk.injEq]
    by_cases h : b = i
    · by_cases h' : y = j
      · simp [h, h']; ring
      · simp [h, h']; ring
    · simp [h]

/-- The relative frequencies of the symbols emitted by a state concentrate at the emission
probabilities. -/
theorem emissions_concentrate {P : Matrix (Fin n) (Fin n) ℝ} {E : Matrix (Fin n) (Fin k) ℝ}
    (hP : IsStochastic P) (hE : IsStochastic E) {x : Fin n → ℝ} (hx : ∀ i, 0 < x i)
    {z : Fin n → Fin n → ℝ}
    (hz : ∀ i j, ∑ l, P i l * z l j = z i j + x j - (1 : Matrix (Fin n) (Fin n) ℝ) i j)
    (i : Fin n) (j : Fin k) :
    ∃ C, 0 ≤ C ∧ ∀ (s : ℕ) (e : ℝ), 0 < s → 0 < e → ∀ (a : Fin n × Fin k)
      (A : List (Fin n × Fin k) → Prop) [DecidablePred A],
      (∀ l, l.length = s → A l → 0 < ((a :: l).map Prod.fst).count i →
        e ≤ |((a :: l).count (i, j) : ℝ) / (((a :: l).map Prod.fst).count i : ℕ) - E i j|) →
      prob (pairChain P E) s a A ≤ C * (1 + 1 / e ^ 2) / s := by
  have hQ := pairChain_stochastic (P := P) (E := E) hP hE
  obtain ⟨φ, hφ⟩ : ∃ φ : Fin n × Fin k → ℝ,
    φ = fun a => if a.1 = i then (if a.2 = j then 1 else 0) - E i j else 0 := ⟨_, rfl⟩
  obtain ⟨C1, hC1, h1⟩ := path_concentrates hQ (g := fun a _ => φ a) (w := φ) φ (fun a => by
    rw [Fintype.sum_prod_type]
    refine sum_eq_zero fun b _ => ?_
    by_cases hb : b = i
    · subst hb
      simp [hφ, pairChain, mul_sub, sum_sub_distrib, ← sum_mul, ← mul_sum, hE.2 b]
    · simp [hφ, hb])
  obtain ⟨C2, hC2, h2⟩ := path_concentrates hP (g := fun a _ => (if a = i then 1 else 0) - x i)
    (w := fun a => z a i) (fun a => (if a = i then 1 else 0) - x i) (fun a => by
      have : ∀ b, P a b * ((if a = i then 1 else 0) - x i + z b i - z a i) =
          P a b * ((if a = i then 1 else 0) - x i - z a i) + P a b * z b i := fun b => by ring
      simp only [this]
      rw [sum_add_distrib, ← sum_mul, hP.2 a, hz, Matrix.one_apply]
      ring)
  have hxi := hx i
  refine ⟨4 * (C1 + C2) / x i ^ 2, by positivity, fun s e hs he a A _ hA => ?_⟩
  have hs' : (0 : ℝ) < s := by exact_mod_cast hs
  refine (prob_mono hQ.1 (F := fun l =>
    e * x i / 2 * (s + 1) ≤ |((a :: l).count (i, j) : ℝ) - E i j * (((a :: l).map Prod.fst).count i : ℕ)| ∨
      x i / 2 * (s + 1) ≤ |(((a.1 :: l.map Prod.fst).count i : ℕ) : ℝ) - (s + 1) * x i|) fun l hl h =>
    ratio_far hxi (by positivity) he fun hN => hA l hl h (by exact_mod_cast hN)).trans ?_
  refine (prob_union hQ.1 _ _).trans ?_
  rw [prob_pairs (fun i j => P i j) (E := fun i j => E i j) hE s a
    fun l => x i / 2 * (s + 1) ≤ |(((a.1 :: l).count i : ℕ) : ℝ) - (s + 1) * x i|]
  refine (add_le_add (h1 s (e * x i / 2) hs (by positivity) a _ fun l hl h => ?_)
    (h2 s (x i / 2) hs (by positivity) a.1 _ fun l hl h => ?_)).trans ?_
  · rw [moveSum_all, hφ, ← count_emissions]
    refine le_trans ?_ h
    gcongr
    linarith
  · rw [← count_moveSum, hl]
    refine le_trans ?_ h
    gcongr
    linarith
  · have h3 : C1 / ((e * x i / 2) ^ 2 * s) + C2 / ((x i / 2) ^ 2 * s) =
        4 / (x i ^ 2 * s) * (C1 * (1 / e ^ 2) + C2) := by
      field_simp
      ring
    have h4 : 4 * (C1 + C2) / x i ^ 2 * (1 + 1 / e ^ 2) / s =
        4 / (x i ^ 2 * s) * ((C1 + C2) * (1 + 1 / e ^ 2)) := by
      field_simp
    rw [h3, h4]
    gcongr
    have h5 : 0 ≤ 1 / e ^ 2 := by positivity
    nlinarith [mul_nonneg hC2 h5]

/-! ## C130 -/

/-- `estimate` accepts the labels of a valid model and the simulated run of two or more pairs. -/
theorem hmmEstimateApi_run {m : HMM ℝ} (hm : m.Valid) (b b' : Bool) {w : List (Fin m.n × Fin m.k)}
    (hw : 2 ≤ w.length) :
    hmmEstimateApi (pyStrings m.states : PyVal ℝ) (pyStrings m.symbols)
      (render m.states b (w.map Prod.fst)).toPy (render m.symbols b' (w.map Prod.snd)).toPy =
      .ok ⟨m.n, m.k, normalizeRows (fillNullRows fun i j => (transitionCount (w.map Prod.fst) i j : ℝ)),
        normalizeRows (fillNullRows fun i j => (w.count (i, j) : ℝ)), m.states, m.symbols⟩ := by
  obtain ⟨n, k, p, e, states, symbols⟩ := m
  obtain ⟨hn, hk, -, -, hl, hly, hd⟩ := hm
  obtain rfl : states.length = n := hl.1
  obtain rfl : symbols.length = k := hly.1
  simp only at hn hk hl hly hd w hw ⊢
  have h0 : ∀ {l : List String}, 2 ≤ l.length → ValidLabels l.length l →
      validateLabelsInput (pyStrings l : PyVal ℝ) none = .ok l := by
    intro l hn hv
    have h := (validateLabelsInput_pyStrings (K := ℝ) hn).2 ⟨hv, rfl⟩
    unfold validateLabelsInput pyStrings at h ⊢
    rw [R.ite_throw, R.ite_throw, R.ite_throw, R.ite_throw] at h
    rw [R.ite_throw, R.ite_throw, R.ite_throw]
    exact ⟨h.1, h.2.1, h.2.2.1, h.2.2.2.2⟩
  unfold hmmEstimateApi
  rw [h0 hn hl]
  change (validateLabelsInput _ _ >>= _) = _
  rw [h0 hk hly]
  change (validateSequence _ _ >>= _) = _
  rw [validateSequence_run hl b (by simpa using hw)]
  change (validateSequence _ _ >>= _) = _
  rw [validateSequence_run hly b' (by simpa using hw)]
  change (if _ then _ else _) = _
  rw [if_neg]
  · rw [if_neg (by simp)]
    have e1 : (fun i j => (countMatrix states.length ((w.map Prod.fst).map Fin.val) i j : ℝ)) =
        fun i j => (transitionCount (w.map Prod.fst) i j : ℝ) := by
      funext i j; rw [countMatrix_eq]
    have e2 : (fun i j => (emissionMatrix states.length symbols.length ((w.map Prod.fst).map Fin.val)
        ((w.map Prod.snd).map Fin.val) i j : ℝ)) = fun i j => (w.count (i, j) : ℝ) := by
      funext i j; rw [emissionMatrix_eq, emissionCount_pairs]
    unfold hmmEstimate
    simp only [if_true]
    refine congrArg Except.ok ?_
    refine congrArg₂ (fun a b => (⟨states.length, symbols.length, a, b, states, symbols⟩ : HMM ℝ)) ?_ ?_
    · exact congrArg (fun M => normalizeRows (fillNullRows M)) e1
    · exact congrArg (fun M => normalizeRows (fillNullRows M)) e2
  · rw [List.any_eq_true]
    rintro ⟨x, hx, hx'⟩
    exact hd hx (by simpa using hx')

/-- C130. If the states of a hidden model form one communicating class, then `estimate` recovers the
model from a simulated run with high probability: each transition and each emission probability is off by
`e` or more with probability at most `C (1 + 1 / e²) / s` after `s` steps, where `C` depends neither on
the steps nor on the initial state. -/
theorem C130_estimate {m : HMM ℝ} (hm : m.Valid) (hn : 0 < m.n) (hk : 0 < m.k) [NeZero m.k]
    (hirr : Irreducible m.p) :
    ∃ C : ℝ, ∀ (start : Fin m.n) {steps initialState : PyVal ℝ} {s : ℤ} {i : Option (Fin m.n)},
      validateInteger steps (some (2, false)) none = .ok s → OptionalState initialState m.states i →
      ∃ (estP : ℝ × (ℕ → ℝ × ℝ) → Matrix (Fin m.n) (Fin m.n) ℝ)
        (estE : ℝ × (ℕ → ℝ × ℝ) → Matrix (Fin m.n) (Fin m.k) ℝ),
        (∀ ω b b', ∃ run : List (Fin m.n × Fin m.k),
          m.simulate hn hk (cdfChoice fun _ => ω.1) (fun t => (ω.2 t).1) (fun t => (ω.2 t).2) start steps
            initialState .none .none = .ok run ∧
          hmmEstimateApi (pyStrings m.states : PyVal ℝ) (pyStrings m.symbols)
            (render m.states b (run.map Prod.fst)).toPy (render m.symbols b' (run.map Prod.snd)).toPy =
            .ok ⟨m.n, m.k, estP ω, estE ω, m.states, m.symbols⟩) ∧
        ∀ e > 0, ∀ i,
          (∀ j, hiddenDraws {ω | e ≤ |estP ω i j - m.p i j|} ≤
            ENNReal.ofReal (C * (1 + 1 / e ^ 2) / s.toNat)) ∧
          (∀ j, hiddenDraws {ω | e ≤ |estE ω i j - m.e i j|} ≤
            ENNReal.ofReal (C * (1 + 1 / e ^ 2) / s.toNat)) := by
  have hP := hm.2.2.1
  have hE := hm.2.2.2.1
  obtain ⟨-, h3, h2⟩ := gthSolve_stationary hn hP hirr
  obtain ⟨z, -, hz⟩ := ergodic_fundamental (P := m.p) hP hirr h2
  choose C hC0 hC using fun q : Fin m.n × Fin m.n => moves_concentrate (P := m.p) hP h3 hz q.1 q.2
  choose D hD0 hD using fun q : Fin m.n × Fin m.k =>
    emissions_concentrate (P := m.p) (E := m.e) hP hE h3 hz q.1 q.2
  refine ⟨∑ q, C q + ∑ q, D q, fun start {steps initialState s i} hs hi => ?_⟩
  have hs2 := (validateInteger_ge hs).2
  have hs0 : 0 < s.toNat := by omega
  have hCs : ∀ q, C q ≤ ∑ q, C q + ∑ q, D q := fun q =>
    (single_le_sum (fun q _ => hC0 q) (mem_univ q)).trans
      (le_add_of_nonneg_right (sum_nonneg fun q _ => hD0 q))
  have hDs : ∀ q, D q ≤ ∑ q, C q + ∑ q, D q := fun q =>
    (single_le_sum (fun q _ => hD0 q) (mem_univ q)).trans
      (le_add_of_nonneg_left (sum_nonneg fun q _ => hC0 q))
  obtain ⟨run, hrun, hlaw⟩ := C117_simulate hm hn hk start hs hi (f := none) (g := none)
    (Or.inl ⟨rfl, rfl⟩) (Or.inl ⟨rfl, rfl⟩)
  obtain ⟨a, ha⟩ : ∃ a, a = i.getD start := ⟨_, rfl⟩
  simp only [← ha, stopAt_never] at hlaw
  have hlen : ∀ ω, 2 ≤ (run ω).length := by
    intro ω
    have h := hrun ω
    unfold HMM.simulate at h
    rw [hs] at h
    change (optionalLabel initialState m.states m.n >>= _) = _ at h
    rw [optionalLabel_ok hi] at h
    have h' : hmmSimulate m.p m.e hn hk (cdfChoice fun _ => ω.1) (fun t => (ω.2 t).1)
      (fun t => (ω.2 t).2) s.toNat (i.getD start) none none = run ω := Except.ok.inj h
    rw [← h']
    obtain ⟨q, hq⟩ := Nat.exists_eq_add_of_le (show 1 ≤ s.toNat by omega)
    rw [hq, Nat.add_comm]
    simp [hmmSimulate, hmmSimulateLoop]
  have hmix : ∀ (B : ℝ) (A : List (Fin m.n × Fin m.k) → Prop) [DecidablePred A],
      (∀ y, prob (pairChain m.p m.e) s.toNat (a, y) (fun w => A ((a, y) :: w)) ≤ B) →
      hiddenDraws {ω | A (run ω)} ≤ ENNReal.ofReal B := by
    intro B A _ h
    rw [hlaw]
    refine ENNReal.ofReal_le_ofReal ?_
    refine (sum_le_sum fun y _ => mul_le_mul_of_nonneg_left (h y) (hE.1 a y)).trans_eq ?_
    rw [← sum_mul, hE.2 a, one_mul]
  refine ⟨fun ω => normalizeRows (fillNullRows fun i j => (transitionCount ((run ω).map Prod.fst) i j : ℝ)),
    fun ω => normalizeRows (fillNullRows fun i j => ((run ω).count (i, j) : ℝ)),
    fun ω b b' => ⟨run ω, hrun ω, hmmEstimateApi_run hm b b' (hlen ω)⟩, fun e he p => ⟨fun q => ?_, fun q => ?_⟩⟩
  · refine hmix _ (fun w => e ≤ |normalizeRows (fillNullRows fun i j =>
      (transitionCount (w.map Prod.fst) i j : ℝ)) p q - m.p p q|) fun y => ?_
    refine (prob_pairs (fun i j => m.p i j) (E := fun i j => m.e i j) hE s.toNat (a, y) fun l =>
      e ≤ |normalizeRows (fillNullRows fun i j =>
      (transitionCount (a :: l) i j : ℝ)) p q - m.p p q|).trans_le ?_
    refine (hC (p, q) s.toNat e hs0 he a _ fun l _ h hpos => ?_).trans ?_
    · rwa [(frequencies rfl p q).1 hpos] at h
    · have := hCs (p, q)
      gcongr
  · refine hmix _ (fun w => e ≤ |normalizeRows (fillNullRows fun i j =>
      (w.count (i, j) : ℝ)) p q - m.e p q|) fun y => ?_
    refine (hD (p, q) s.toNat e hs0 he (a, y) _ fun l _ h hpos => ?_).trans ?_
    · have h6 : ∑ j, ((a, y) :: l).count (p, j) = (((a, y) :: l).map Prod.fst).count p := by
        rw [← emissionCount_sum]
        simp only [emissionCount_pairs]
      have h5 := (frequencies (K := ℝ) (c := fun i j => ((a, y) :: l).count (i, j)) rfl p q).1
        (by rw [h6]; exact hpos)
      rw [h6] at h5
      rwa [h5] at h
    · have := hDs (p, q)
      gcongr

/-- The hypotheses of `C130_estimate` can be met: a model whose states change at random. -/
example : exClockR.Valid ∧ Irreducible exClockR.p ∧
    validateInteger (.int 5 : PyVal ℝ) (some (2, false)) none = .ok 5 ∧
    OptionalState (.str "a" : PyVal ℝ) exClockR.states (some (0 : Fin 2)) := by
  refine ⟨exClockR_valid, ?_, rfl, Or.inr ⟨0, (fun h => by cases h), rfl, rfl⟩⟩
  have h : ∀ i j : Fin 2, Reach (fun i j : Fin 2 => exClockR.p i j) i j := by
    intro i j
    by_cases hij : i = j
    · exact hij ▸ Relation.ReflTransGen.refl
    · refine Relation.ReflTransGen.single ?_
      simp [Edge, exClockR_p, hij]
  exact h

end Verif
