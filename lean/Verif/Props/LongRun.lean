import Verif.Lemmas.LongRun
import Verif.Props.Passage
import Verif.Props.Regular
import Verif.Props.Fitting
import Verif.Props.SimulationLaw

/-!
# Long-run behaviour (C118, C119, C120)
-/

set_option linter.unusedSectionVars false

namespace Verif

open Finset MeasureTheory

variable {K : Type} [Field K] [LinearOrder K] [IsStrictOrderedRing K]

/-! ## C118: powers and redistributions -/

/-- A weighted average of values near `y` is near `y`. -/
theorem average_near {ι : Type} [Fintype ι] {d v : ι → K} (h0 : ∀ i, 0 ≤ d i) (hs : 0 < ∑ i, d i) {y e : K}
    (h : ∀ i, |v i - y| ≤ e) : |(∑ i, d i * v i) / ∑ i, d i - y| ≤ e := by
  have h1 : (∑ i, d i * v i) / ∑ i, d i - y = (∑ i, d i * (v i - y)) / ∑ i, d i := by
    simp only [mul_sub, sum_sub_distrib, ← sum_mul]
    field_simp
  rw [h1, abs_div, abs_of_pos hs, div_le_iff₀ hs]
  refine (abs_sum_le_sum_abs _ _).trans ?_
  rw [mul_sum]
  refine sum_le_sum fun i _ => ?_
  rw [abs_mul, abs_of_nonneg (h0 i), mul_comm]
  exact mul_le_mul_of_nonneg_right (h i) (h0 i)

/-- C118. If `is_regular` holds, then `pi` is one distribution, and the rows of the powers of the
transition matrix and the results of `redistribute` approach it at a common geometric rate, whatever
the initial status is. -/
theorem C118_converges {c : MC K} (hc : c.Valid) {sccs : List (List (Fin c.n))}
    (h : IsClasses c.p sccs) (hr : isRegular c = true) :
    ∃ (x : Fin c.n → K) (m : ℕ) (r : K), pi c sccs = .ok [x] ∧ 0 < m ∧ 0 ≤ r ∧ r < 1 ∧
      (∀ (k : ℕ) i j, |(c.p ^ k) i j - x j| ≤ r ^ (k / m)) ∧
      ∀ (k : ℕ) (status : PyVal K) (l : List (Fin c.n → K)),
        redistribute c (.int k) status (.bool true) = .ok l →
          ∃ d, l = [d] ∧ ∀ j, |d j - x j| ≤ r ^ (k / m) := by
  have hp := (C31_regular hc).1 hr
  obtain ⟨x, h1, h2, -, -⟩ := C34_stationary hc h hp.irreducible
  have : Nonempty (Fin c.n) := ⟨⟨0, by have := hc.1; omega⟩⟩
  obtain ⟨m, r, hm, h0, hlt, hrate⟩ := primitive_rate (P := c.p) hc.2.1 h2 hp
  refine ⟨x, m, r, h1, hm, h0, hlt, hrate, fun k status l hl => ?_⟩
  obtain ⟨k', d, law, hk, h1k, -, hd0, hds, -, hlaw, hlast, -⟩ := C15_redistribute hc hl
  have hkk : k' = k := by
    injection hk with hk
    exact_mod_cast hk.symm
  subst hkk
  refine ⟨law k', hlast rfl, fun j => ?_⟩
  rw [hlaw k' j h1k]
  refine average_near hd0 hds fun i => ?_
  rw [← pow_eq_prob]
  exact hrate k' i j

/-- C118, equivalence. For a chain with one communicating class, `is_regular` holds exactly when the rows
of the powers of the transition matrix tend to `pi`. -/
theorem C118_regular_iff [Archimedean K] {c : MC K} (hc : c.Valid) {sccs : List (List (Fin c.n))}
    (h : IsClasses c.p sccs) (hirr : isIrreducible c sccs = true) :
    ∃ x : Fin c.n → K, pi c sccs = .ok [x] ∧
      (isRegular c = true ↔
        ∀ e > 0, ∃ N, ∀ k ≥ N, ∀ i j, |(c.p ^ k) i j - x j| < e) := by
  obtain ⟨x, h1, h2, h3, -⟩ := C34_stationary hc h ((C30_irreducible hc h).1 hirr)
  have : Nonempty (Fin c.n) := ⟨⟨0, by have := hc.1; omega⟩⟩
  refine ⟨x, h1, fun hr e he => ?_, fun hcon => ?_⟩
  · obtain ⟨m, r, hm, h0, hlt, hrate⟩ := primitive_rate (P := c.p) hc.2.1 h2 ((C31_regular hc).1 hr)
    obtain ⟨N, hN⟩ := rate_vanishes hm h0 hlt he
    exact ⟨N, fun k hk i j => (hrate k i j).trans_lt (hN k hk)⟩
  · obtain ⟨j0, -, hj0⟩ := exists_min_image (univ : Finset (Fin c.n)) x univ_nonempty
    obtain ⟨N, hN⟩ := hcon (x j0) (h3 j0)
    refine (C31_regular hc).2 ⟨N + 1, by omega, fun i j => ?_⟩
    refine (reachIn_iff_pow_pos (P := c.p) hc.2.1.1 (N + 1) i j).2 ?_
    have h4 := (abs_lt.1 (hN (N + 1) (by omega) i j)).1
    have h5 := hj0 j (mem_univ j)
    linarith

/-- C118, averages. If the chain has one communicating class, regular or not, then the average of the
first `k` rows of powers differs from `pi` by at most a multiple of `1 / k`. -/
theorem C118_averages {c : MC K} (hc : c.Valid) {sccs : List (List (Fin c.n))}
    (h : IsClasses c.p sccs) (hirr : isIrreducible c sccs = true) :
    ∃ (x : Fin c.n → K) (B : K), pi c sccs = .ok [x] ∧
      ∀ k : ℕ, 0 < k → ∀ i j, |(∑ t ∈ range k, (c.p ^ t) i j) / k - x j| ≤ B / k := by
  have hi := (C30_irreducible hc h).1 hirr
  obtain ⟨x, h1, h2, -, -⟩ := C34_stationary hc h hi
  obtain ⟨z, -, hz⟩ := ergodic_fundamental (P := c.p) hc.2.1 hi h2
  obtain ⟨B, -, hB⟩ := finite_bound fun q : Fin c.n × Fin c.n => |z q.1 q.2|
  exact ⟨x, 2 * B, h1, fun k hk i j => averages_near hz hc.2.1 (fun a b => hB (a, b)) hk i j⟩

/-- The hypotheses of the three theorems can be met. -/
example : exLoop.Valid ∧ IsClasses (fun i j : Fin 2 => exLoop.p i j) [[0, 1]] ∧ isRegular exLoop = true ∧
    isIrreducible exLoop ([[0, 1]] : List (List (Fin 2))) = true ∧
    (redistribute exLoop (.int 3) .none (.bool true)).toOption.isSome ∧ exSwap.Valid ∧
    IsClasses (fun i j : Fin 2 => exSwap.p i j) [[0, 1]] ∧ isRegular exSwap = false ∧
    isIrreducible exSwap ([[0, 1]] : List (List (Fin 2))) = true := by
  decide +kernel

/-! ## C119: visits of simulated runs -/

/-- C119. If the chain has one communicating class, then the share of each state in a simulated run is
close to its entry of `pi` with high probability: it is off by `e` or more with probability at most
`C / (e² s)` after `s` steps, where `C` depends neither on the steps nor on the initial state. -/
theorem C119_frequencies {c : MC ℝ} (hc : c.Valid) [NeZero c.n] {sccs : List (List (Fin c.n))}
    (h : IsClasses c.p sccs) (hirr : isIrreducible c sccs = true) :
    ∃ (x : Fin c.n → ℝ) (C : ℝ), pi c sccs = .ok [x] ∧
      ∀ (start : Fin c.n) {steps initialState : PyVal ℝ} {s : ℤ} {i : Option (Fin c.n)},
        validateInteger steps (some (2, false)) none = .ok s → OptionalState initialState c.states i →
        ∃ run : (ℕ → ℝ) → List (Fin c.n),
          (∀ u b, simulate c (cdfChoice u) start steps initialState .none (.bool b) =
            .ok (render c.states b (run u))) ∧
          ∀ e > 0, ∀ j, Measure.infinitePi (fun _ : ℕ => uniformDraw)
            {u | e ≤ |((run u).count j : ℝ) / (s.toNat + 1) - x j|} ≤
              ENNReal.ofReal (C / (e ^ 2 * s.toNat)) := by
  have hi := (C30_irreducible hc h).1 hirr
  obtain ⟨x, h1, h2, -, -⟩ := C34_stationary hc h hi
  obtain ⟨z, -, hz⟩ := ergodic_fundamental (P := c.p) hc.2.1 hi h2
  choose C hC0 hC using fun j => visits_concentrate (P := c.p) hc.2.1 hz j
  refine ⟨x, ∑ j, C j, h1, fun start {steps initialState s i} hs hi => ?_⟩
  obtain ⟨run, hr1, hr2⟩ := C116_simulate hc start hs hi (f := none) (Or.inl ⟨rfl, rfl⟩)
  have hs2 := (validateInteger_ge hs).2
  refine ⟨run, hr1, fun e he j => ?_⟩
  rw [hr2 fun w => e ≤ |(w.count j : ℝ) / (s.toNat + 1) - x j|]
  refine ENNReal.ofReal_le_ofReal ?_
  refine le_trans (le_of_eq (prob_iff c.p _ _ fun w => ?_))
    ((hC j s.toNat e (by omega) he (i.getD start)).trans ?_)
  · rw [stopAt_none]
  · have h3 : C j ≤ ∑ j, C j := single_le_sum (fun j _ => hC0 j) (mem_univ j)
    gcongr

/-! ## C120: fitting simulated runs -/

/-- What `simulate` returns, as an argument of `fit_sequence`. -/
def Output.toPy : Output → PyVal K
  | .indices l => .list (l.map fun i : ℕ => .int (i : ℤ))
  | .labels l => .list (l.map .str)

theorem count_moves {n : ℕ} (i j : Fin n) (p : K) (a : Fin n) (l : List (Fin n)) :
    (transitionCount (a :: l) i j : K) - p * (∑ b, transitionCount (a :: l) i b : ℕ) =
      moveSum (fun a b => if a = i then (if b = j then 1 else 0) - p else 0) (a :: l) := by
  induction l generalizing a with
  | nil => simp [moveSum, transitionCount]
  | cons b l ih =>
    have h := ih b
    simp only [moveSum, transitionCount_cons, sum_add_distrib]
    rw [← h]
    by_cases hia : i = a
    · subst hia
      by_cases hjb : j = b
      · subst hjb
        simp
        ring
      · simp [hjb, Ne.symm hjb]
        ring
    · simp [hia, Ne.symm hia]

theorem count_leaves {n : ℕ} (i : Fin n) (x : K) (a : Fin n) (l : List (Fin n)) :
    ((∑ b, transitionCount (a :: l) i b : ℕ) : K) - l.length * x =
      moveSum (fun a _ => (if a = i then 1 else 0) - x) (a :: l) := by
  induction l generalizing a with
  | nil => simp [moveSum, transitionCount]
  | cons b l ih =>
    have h := ih b
    simp only [moveSum, transitionCount_cons, sum_add_distrib, List.length_cons]
    rw [← h]
    by_cases hia : i = a
    · subst hia
      simp
      ring
    · simp [hia, Ne.symm hia]
      ring

/-- If a ratio of counts is far from `p`, then one of the counts is far from its mean. -/
theorem ratio_far {N D p x k e : K} (hx : 0 < x) (hk : 0 < k) (he : 0 < e)
    (h : 0 < N → e ≤ |D / N - p|) : e * x / 2 * k ≤ |D - p * N| ∨ x / 2 * k ≤ |N - k * x| := by
  by_contra hcon
  push Not at hcon
  obtain ⟨h1, h2⟩ := hcon
  have h3 : x / 2 * k < N := by
    have := (abs_lt.1 h2).1
    nlinarith
  have h4 : 0 < N := lt_trans (by positivity) h3
  have h5 := h h4
  have h6 : D / N - p = (D - p * N) / N := by field_simp
  rw [h6, abs_div, abs_of_pos h4, le_div_iff₀ h4] at h5
  nlinarith

/-- The relative frequencies of the moves of an irreducible chain concentrate at the transition
probabilities. -/
theorem moves_concentrate {n : ℕ} {P : Matrix (Fin n) (Fin n) K} (hP : IsStochastic P) {x : Fin n → K}
    (hx : ∀ i, 0 < x i) {z : Fin n → Fin n → K}
    (hz : ∀ i j, ∑ k, P i k * z k j = z i j + x j - (1 : Matrix (Fin n) (Fin n) K) i j) (i j : Fin n) :
    ∃ C, 0 ≤ C ∧ ∀ (k : ℕ) (e : K), 0 < k → 0 < e → ∀ (a : Fin n) (E : List (Fin n) → Prop)
      [DecidablePred E], (∀ l, l.length = k → E l → 0 < ∑ b, transitionCount (a :: l) i b →
        e ≤ |(transitionCount (a :: l) i j : K) / (∑ b, transitionCount (a :: l) i b : ℕ) - P i j|) →
      prob P k a E ≤ C * (1 + 1 / e ^ 2) / k := by
  obtain ⟨C1, hC1, h1⟩ := path_concentrates hP
    (g := fun a b => if a = i then (if b = j then 1 else 0) - P i j else 0) (w := fun _ => 0)
    (fun _ => 0) (fun a => by
      by_cases ha : a = i
      · subst ha
        simp [mul_sub, sum_sub_distrib, ← sum_mul, hP.2 a]
      · simp [ha])
  obtain ⟨C2, hC2, h2⟩ := path_concentrates hP (g := fun a _ => (if a = i then 1 else 0) - x i)
    (w := fun a => z a i) (fun _ => 0) (fun a => by
      have : ∀ b, P a b * ((if a = i then 1 else 0) - x i + z b i - z a i) =
          P a b * ((if a = i then 1 else 0) - x i - z a i) + P a b * z b i := fun b => by ring
      simp only [this]
      rw [sum_add_distrib, ← sum_mul, hP.2 a, hz, Matrix.one_apply]
      ring)
  have hxi := hx i
  refine ⟨4 * (C1 + C2) / x i ^ 2, by positivity, fun k e hk he a E _ hE => ?_⟩
  have hk' : (0 : K) < k := by exact_mod_cast hk
  refine (prob_mono hP.1 (F := fun l =>
    e * x i / 2 * k ≤ |(transitionCount (a :: l) i j : K) - P i j * (∑ b, transitionCount (a :: l) i b : ℕ)| ∨
      x i / 2 * k ≤ |((∑ b, transitionCount (a :: l) i b : ℕ) : K) - k * x i|) fun l hl h =>
    ratio_far hxi hk' he fun hN => hE l hl h (by exact_mod_cast hN)).trans ?_
  refine (prob_union hP.1 _ _).trans ?_
  refine (add_le_add (h1 k (e * x i / 2) hk (by positivity) a _ fun l hl h => ?_)
    (h2 k (x i / 2) hk (by positivity) a _ fun l hl h => ?_)).trans ?_
  · rw [add_zero, ← count_moves]
    exact h
  · rw [add_zero, ← count_leaves, hl]
    exact h
  · have h3 : C1 / ((e * x i / 2) ^ 2 * k) + C2 / ((x i / 2) ^ 2 * k) =
        4 / (x i ^ 2 * k) * (C1 * (1 / e ^ 2) + C2) := by
      field_simp
      ring
    have h4 : 4 * (C1 + C2) / x i ^ 2 * (1 + 1 / e ^ 2) / k =
        4 / (x i ^ 2 * k) * ((C1 + C2) * (1 + 1 / e ^ 2)) := by
      field_simp
    rw [h3, h4]
    gcongr
    have h5 : 0 ≤ 1 / e ^ 2 := by positivity
    nlinarith [mul_nonneg hC2 h5]

/-- The simulated run of two or more states is accepted as a sequence of states. -/
theorem validateSequence_run {states : List String} (hv : ValidLabels states.length states) (b : Bool)
    {w : List (Fin states.length)} (hw : 2 ≤ w.length) :
    validateSequence ((render states b w).toPy : PyVal K) states = .ok (w.map Fin.val) := by
  rw [C04_sequences hv.2.1]
  cases b with
  | true =>
    refine ⟨w.map fun i : Fin states.length => .int (i.val : ℤ), ?_, by simpa using hw, Or.inl ?_, ?_⟩
    · simp only [render, Output.toPy, if_true, List.map_map]
      rfl
    · intro v hv
      obtain ⟨i, -, rfl⟩ := List.mem_map.1 hv
      exact ⟨_, rfl⟩
    · rw [List.forall₂_map_left_iff, List.forall₂_map_right_iff, List.forall₂_same]
      exact fun i _ => Or.inl ⟨rfl, i.2⟩
  | false =>
    have hg : ∀ i : Fin states.length, states.getD i "" = states[i] := fun i => by simp
    refine ⟨w.map fun i : Fin states.length => .str (states.getD i.val ""), ?_, by simpa using hw, Or.inr ?_, ?_⟩
    · simp [render, Output.toPy]
    · intro v hv'
      obtain ⟨i, -, rfl⟩ := List.mem_map.1 hv'
      exact ⟨_, rfl, hv.2.2 _ (by rw [hg]; simp)⟩
    · rw [List.forall₂_map_left_iff, List.forall₂_map_right_iff, List.forall₂_same]
      exact fun i _ => Or.inr ⟨_, rfl, hv.2.2 _ (by rw [hg]; simp), by simp⟩

/-- `fit_sequence` accepts the labels of a valid chain and the simulated run of two or more states. -/
theorem fitSequence_run [FloorRing K] {c : MC K} (hc : c.Valid) (b : Bool) {w : List (Fin c.n)}
    (hw : 2 ≤ w.length) :
    fitSequence (.str "mle" : PyVal K) (pyStrings c.states) (render c.states b w).toPy .none =
      .ok ⟨c.n, fitMle c.n (w.map Fin.val) false, c.states⟩ := by
  obtain ⟨n, p, states⟩ := c
  obtain ⟨hn, -, hv⟩ := hc
  obtain rfl : states.length = n := hv.1
  simp only at hn hv w hw ⊢
  have h1 : validateLabelsInput (pyStrings states : PyVal K) none = .ok states := by
    have h := (validateLabelsInput_pyStrings (K := K) hn).2 ⟨hv, rfl⟩
    unfold validateLabelsInput pyStrings at h ⊢
    rw [R.ite_throw, R.ite_throw, R.ite_throw, R.ite_throw] at h
    rw [R.ite_throw, R.ite_throw, R.ite_throw]
    exact ⟨h.1, h.2.1, h.2.2.1, h.2.2.2.2⟩
  have h2 := validateSequence_run (K := K) hv b hw
  unfold fitSequence
  rw [h1]
  change (validateSequence _ _ >>= _) = _
  rw [h2]
  rfl

theorem fitMle_row {n : ℕ} {w : List (Fin n)} {i : Fin n} (h : 0 < ∑ l, transitionCount w i l) (j : Fin n) :
    (fitMle n (w.map Fin.val) false i j : K) =
      transitionCount w i j / (∑ l, transitionCount w i l : ℕ) := by
  refine (normalize_fill_row ?_ j).trans ?_
  · by_contra hall
    push Not at hall
    have : ∀ m, transitionCount w i m = 0 := by
      intro m
      have := hall m
      simpa [countMatrix_eq] using this
    simp [this] at h
  · simp [countMatrix_eq]

/-- C120. If the chain has one communicating class, then `fit_sequence` with the maximum likelihood method
recovers its transition probabilities from a simulated run with high probability: each entry is off by
`e` or more with probability at most `C (1 + 1 / e²) / s` after `s` steps, where `C` depends neither on
the steps nor on the initial state. -/
theorem C120_consistent {c : MC ℝ} (hc : c.Valid) [NeZero c.n] (hirr : Irreducible c.p) :
    ∃ C : ℝ, ∀ (start : Fin c.n) {steps initialState : PyVal ℝ} {s : ℤ} {i : Option (Fin c.n)},
      validateInteger steps (some (2, false)) none = .ok s → OptionalState initialState c.states i →
      ∃ est : (ℕ → ℝ) → Matrix (Fin c.n) (Fin c.n) ℝ,
        (∀ u b, ∃ out, simulate c (cdfChoice u) start steps initialState .none (.bool b) = .ok out ∧
          fitSequence (.str "mle") (pyStrings c.states) out.toPy .none = .ok ⟨c.n, est u, c.states⟩) ∧
        ∀ e > 0, ∀ i j, Measure.infinitePi (fun _ : ℕ => uniformDraw)
          {u | e ≤ |est u i j - c.p i j|} ≤ ENNReal.ofReal (C * (1 + 1 / e ^ 2) / s.toNat) := by
  obtain ⟨-, h3, h2⟩ := gthSolve_stationary (by have := hc.1; omega) hc.2.1 hirr
  obtain ⟨z, -, hz⟩ := ergodic_fundamental (P := c.p) hc.2.1 hirr h2
  choose C hC0 hC using fun q : Fin c.n × Fin c.n => moves_concentrate (P := c.p) hc.2.1 h3 hz q.1 q.2
  refine ⟨∑ q, C q, fun start {steps initialState s i} hs hi => ?_⟩
  have hs2 := (validateInteger_ge hs).2
  obtain ⟨a, ha⟩ : ∃ a, a = i.getD start := ⟨_, rfl⟩
  have hlen : ∀ u, 2 ≤ (mcSimulate (cdfChoice u) c.p s.toNat a none).length := by
    intro u
    obtain ⟨k, hk⟩ := Nat.exists_eq_add_of_le (show 1 ≤ s.toNat by omega)
    rw [hk, Nat.add_comm]
    simp [mcSimulate, simulateLoop]
  refine ⟨fun u => fitMle c.n ((mcSimulate (cdfChoice u) c.p s.toNat a none).map Fin.val) false,
    fun u b => ⟨_, simulate_eq (cdfChoice u) start hs hi (Or.inl ⟨rfl, rfl⟩) b, ?_⟩, fun e he p q => ?_⟩
  · rw [← ha]
    exact fitSequence_run hc b (hlen u)
  · rw [mcSimulate_law hc s.toNat a none fun w => e ≤ |fitMle c.n (w.map Fin.val) false p q - c.p p q|]
    refine ENNReal.ofReal_le_ofReal ?_
    have h4 : C (p, q) ≤ ∑ q, C q := single_le_sum (fun q _ => hC0 q) (mem_univ (p, q))
    refine (hC (p, q) s.toNat e (by omega) he a _ fun l _ h hpos => ?_).trans ?_
    · rw [stopAt_none, fitMle_row hpos] at h
      exact h
    · gcongr

/-- The hypotheses of `C119_frequencies` and `C120_consistent` can be met. -/
example : (exSymmetric (1 / 3)).Valid ∧
    IsClasses (exSymmetric (1 / 3)).p ([[0, 1]] : List (List (Fin 2))) ∧
    isIrreducible (exSymmetric (1 / 3)) ([[0, 1]] : List (List (Fin 2))) = true ∧
    Irreducible (exSymmetric (1 / 3)).p ∧
    validateInteger (.int 5 : PyVal ℝ) (some (2, false)) none = .ok 5 ∧
    OptionalState (.str "a" : PyVal ℝ) (exSymmetric (1 / 3)).states (some (0 : Fin 2)) := by
  have h1 := swapP_classes (q := 1 / 3) (by norm_num) (by norm_num)
  have h2 := (swapP_ergodic (q := 1 / 3) (by norm_num) (by norm_num)).1
  have hv : (exSymmetric (1 / 3)).Valid := exSymmetric_valid (by norm_num) (by norm_num)
  exact ⟨hv, h1, (C30_irreducible hv h1).2 h2, h2, rfl, Or.inr ⟨0, (fun h => by cases h), rfl, rfl⟩⟩

end Verif
