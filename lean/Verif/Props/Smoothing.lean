import Verif.Props.LongRun
import Verif.Props.RawArguments

/-!
# Fitting simulated runs with prior weights (C123)
-/

set_option linter.unusedSectionVars false

namespace Verif

open Finset MeasureTheory

variable {K : Type} [Field K] [LinearOrder K] [IsStrictOrderedRing K]

theorem weighted_far {N D p a A x k e : K} (hx : 0 < x) (hk : 0 < k) (he : 0 < e) (ha : 0 ≤ a)
    (haA : a ≤ A) (hp0 : 0 ≤ p) (hp1 : p ≤ 1) (hA : A ≤ e * x / 4 * k)
    (h : 0 < N → e ≤ |(D + a) / (N + A) - p|) :
    e * x / 4 * k ≤ |D - p * N| ∨ x / 2 * k ≤ |N - k * x| := by
  by_cases h1 : x / 2 * k ≤ |N - k * x|
  · exact Or.inr h1
  · left
    push Not at h1
    rw [abs_lt] at h1
    have h2 : x / 2 * k < N := by nlinarith [h1.1]
    have h3 : 0 < N := lt_trans (by positivity) h2
    have h4 : 0 < N + A := by linarith
    have h5 := h h3
    have h6 : (D + a) / (N + A) - p = (D - p * N + (a - p * A)) / (N + A) := by
      field_simp
      ring
    rw [h6, abs_div, abs_of_pos h4, le_div_iff₀ h4] at h5
    have h7 : |a - p * A| ≤ A := by
      rw [abs_le]
      constructor <;> nlinarith
    have h8 := abs_add_le (D - p * N) (a - p * A)
    have h9 : e * (x / 2 * k) ≤ e * N := by gcongr
    have h10 : 0 ≤ e * A := mul_nonneg he.le (by linarith)
    nlinarith

/-- The relative frequencies of the moves of an irreducible chain, with additional weights, concentrate at
the transition probabilities. -/
theorem weighted_moves_concentrate {n : ℕ} {P : Matrix (Fin n) (Fin n) K} (hP : IsStochastic P) {x : Fin n → K}
    (hx : ∀ i, 0 < x i) {z : Fin n → Fin n → K}
    (hz : ∀ i j, ∑ k, P i k * z k j = z i j + x j - (1 : Matrix (Fin n) (Fin n) K) i j)
    (α : Fin n → Fin n → K) (hα : ∀ i j, 0 ≤ α i j) (i j : Fin n) :
    ∃ C, 0 ≤ C ∧ ∀ (k : ℕ) (e : K), 0 < k → 0 < e → ∀ (a : Fin n) (E : List (Fin n) → Prop)
      [DecidablePred E], (∀ l, l.length = k → E l → 0 < ∑ b, transitionCount (a :: l) i b →
        e ≤ |((transitionCount (a :: l) i j : K) + α i j) /
          (((∑ b, transitionCount (a :: l) i b : ℕ) : K) + ∑ b, α i b) - P i j|) →
      prob P k a E ≤ C * (1 + 1 / e ^ 2) / k := by
  obtain ⟨C1, hC1, h1⟩ := path_concentrates hP
    (g := fun a b => if a = i then (if b = j then 1 else 0) - P i j else 0) (w := fun _ => 0)
    (fun _ => 0) (fun a => by
      by_cases ha : a = i
      · subst ha
        simp [mul_sub, sum_sub_distrib, ← sum_mul, hP.2 a]
      · simp [ha])
  obtain ⟨C2, hC2, h2⟩ := path_concentrates hP (g := fun a _ => (if a = i then 1 else 0) - x i)
    (w := fun a => z a i) (fun _ => 0) (fun a => by
      have : ∀ b, P a b * ((if a = i then 1 else 0) - x i + z b i - z a i) =
          P a b * ((if a = i then 1 else 0) - x i - z a i) + P a b * z b i := fun b => by ring
      simp only [this]
      rw [sum_add_distrib, ← sum_mul, hP.2 a, hz, Matrix.one_apply]
      ring)
  have hxi := hx i
  obtain ⟨A, hA⟩ : ∃ A, A = ∑ b, α i b := ⟨_, rfl⟩
  have hA0 : 0 ≤ A := hA ▸ sum_nonneg fun b _ => hα i b
  have hαA : α i j ≤ A := hA ▸ single_le_sum (fun b _ => hα i b) (mem_univ j)
  have hp1 : P i j ≤ 1 := by
    rw [← hP.2 i]
    exact single_le_sum (f := fun j => P i j) (fun j _ => hP.1 i j) (mem_univ j)
  refine ⟨16 * (C1 + C2) / x i ^ 2 + 4 * A / x i, by positivity, fun k e hk he a E _ hE => ?_⟩
  have hk' : (0 : K) < k := by exact_mod_cast hk
  have hone : prob P k a E ≤ 1 := by
    refine (expect_mono hP.1 (g := fun _ => 1) fun l _ => ?_).trans (expect_const hP k a 1).le
    split <;> norm_num
  have h5 : 0 ≤ 1 / e ^ 2 := by positivity
  have h6 : 1 / e ≤ 1 + 1 / e ^ 2 := by
    have := sq_nonneg (1 / e - 1)
    have h7 : (1 / e) ^ 2 = 1 / e ^ 2 := by rw [div_pow, one_pow]
    have h8 : 0 < 1 / e := by positivity
    nlinarith
  rcases lt_or_ge (e * x i / 4 * k) A with hsmall | hlarge
  · refine hone.trans ?_
    rw [le_div_iff₀ hk', one_mul]
    have h9 : (k : K) ≤ 4 * A / x i * (1 / e) := by
      rw [mul_one_div, div_div, le_div_iff₀ (by positivity)]
      nlinarith
    have h10 : 4 * A / x i * (1 / e) ≤ 4 * A / x i * (1 + 1 / e ^ 2) := by gcongr
    have h11 : 0 ≤ 16 * (C1 + C2) / x i ^ 2 * (1 + 1 / e ^ 2) := by positivity
    linarith [add_mul (16 * (C1 + C2) / x i ^ 2) (4 * A / x i) (1 + 1 / e ^ 2)]
  · refine (prob_mono hP.1 (F := fun l =>
      e * x i / 4 * k ≤ |(transitionCount (a :: l) i j : K) - P i j * (∑ b, transitionCount (a :: l) i b : ℕ)| ∨
        x i / 2 * k ≤ |((∑ b, transitionCount (a :: l) i b : ℕ) : K) - k * x i|) fun l hl h =>
      weighted_far hxi hk' he (hα i j) hαA (hP.1 i j) hp1 hlarge fun hN => by
        rw [hA]
        exact hE l hl h (by exact_mod_cast hN)).trans ?_
    refine (prob_union hP.1 _ _).trans ?_
    refine (add_le_add (h1 k (e * x i / 4) hk (by positivity) a _ fun l hl h => ?_)
      (h2 k (x i / 2) hk (by positivity) a _ fun l hl h => ?_)).trans ?_
    · rw [add_zero, ← count_moves]
      exact h
    · rw [add_zero, ← count_leaves, hl]
      exact h
    · have h3 : C1 / ((e * x i / 4) ^ 2 * k) + C2 / ((x i / 2) ^ 2 * k) =
          16 / (x i ^ 2 * k) * (C1 * (1 / e ^ 2) + C2 / 4) := by
        field_simp
        ring
      have h4 : (16 * (C1 + C2) / x i ^ 2 + 4 * A / x i) * (1 + 1 / e ^ 2) / k =
          16 / (x i ^ 2 * k) * ((C1 + C2) * (1 + 1 / e ^ 2)) + 4 * A / x i * (1 + 1 / e ^ 2) / k := by
        field_simp
      have h7 : 0 ≤ 4 * A / x i * (1 + 1 / e ^ 2) / k := by positivity
      rw [h3, h4]
      refine le_trans ?_ (le_add_of_nonneg_right h7)
      gcongr
      nlinarith [mul_nonneg hC2 h5, mul_nonneg hC1 h5]

/-! ## The fitted rows -/

/-- The additional weights of the counts: none for the plain maximum likelihood method and for the maximum a
posteriori method without a hyper-parameter, a thousandth with smoothing, and the hyper-parameter minus one
otherwise. -/
def PriorWeights [FloorRing K] (type param : PyVal K) (n : ℕ) (α : Fin n → Fin n → K) : Prop :=
  (type = .str "mle" ∧ (param = .none ∨ param = .bool false) ∧ α = fun _ _ => 0) ∨
  (type = .str "mle" ∧ param = .bool true ∧ α = fun _ _ => 1 / 1000) ∨
  (type = .str "map" ∧ param = .none ∧ α = fun _ _ => 0) ∨
  (type = .str "map" ∧ ∃ H, GivesMatrix param H ∧ (∀ i j, ∃ z : ℕ, 1 ≤ z ∧ H i j = z) ∧ α = fun i j => H i j - 1)

theorem PriorWeights.nonneg [FloorRing K] {type param : PyVal K} {n : ℕ} {α : Fin n → Fin n → K}
    (h : PriorWeights type param n α) (i j : Fin n) : 0 ≤ α i j := by
  rcases h with ⟨-, -, rfl⟩ | ⟨-, -, rfl⟩ | ⟨-, -, rfl⟩ | ⟨-, H, -, hH, rfl⟩
  · exact le_rfl
  · positivity
  · exact le_rfl
  · obtain ⟨z, h1, h2⟩ := hH i j
    have : (1 : K) ≤ z := by exact_mod_cast h1
    simp only [h2]
    linarith

theorem fitMle_weights {n : ℕ} {w : List (Fin n)} (b : Bool) {i : Fin n} (h : 0 < ∑ l, transitionCount w i l)
    (j : Fin n) : (fitMle n (w.map Fin.val) b i j : K) =
      ((transitionCount w i j : K) + if b then 1 / 1000 else 0) /
        (((∑ l, transitionCount w i l : ℕ) : K) + ∑ _l : Fin n, if b then 1 / 1000 else 0) := by
  refine (normalize_fill_row ?_ j).trans ?_
  · by_contra hall
    push Not at hall
    have h1 : ∀ m, transitionCount w i m = 0 := by
      intro m
      have h2 := hall m
      simp only [countMatrix_eq] at h2
      have h3 : (0 : K) ≤ if b then 1 / 1000 else 0 := by split <;> positivity
      have h4 : (0 : K) ≤ transitionCount w i m := Nat.cast_nonneg _
      have h5 : (transitionCount w i m : K) = 0 := by linarith
      exact_mod_cast h5
    simp [h1] at h
  · simp only [countMatrix_eq]
    rw [sum_add_distrib, Nat.cast_sum]

theorem fitMap_weights {n : ℕ} {w : List (Fin n)} {H : Matrix (Fin n) (Fin n) K} (hH : ∀ i j, 1 ≤ H i j)
    {i : Fin n} (h : 0 < ∑ l, transitionCount w i l) (j : Fin n) :
    fitMap n (w.map Fin.val) H i j = ((transitionCount w i j : K) + (H i j - 1)) /
        (((∑ l, transitionCount w i l : ℕ) : K) + ∑ l, (H i l - 1)) := by
  obtain ⟨N, hN⟩ : ∃ N : K, N = ((∑ l, transitionCount w i l : ℕ) : K) := ⟨_, rfl⟩
  have hN0 : 0 < N := by rw [hN]; exact_mod_cast h
  have hA0 : 0 ≤ ∑ l, (H i l - 1) := sum_nonneg fun l _ => by linarith [hH i l]
  have hA : ∑ l, (H i l - 1) = ∑ l, H i l - n := by simp [sum_sub_distrib]
  have hraw : ∀ l, fitMapRaw n (w.map Fin.val) H i l =
      ((transitionCount w i l : K) + (H i l - 1)) / (N + ∑ l, (H i l - 1)) := by
    intro l
    simp only [fitMapRaw, countMatrix_eq, ← hN]
    rw [if_neg (by intro h0; linarith), hA]
    congr 1 <;> ring
  have hsum : ∑ l, fitMapRaw n (w.map Fin.val) H i l = 1 := by
    simp only [hraw]
    rw [← sum_div, sum_add_distrib, ← Nat.cast_sum, ← hN]
    exact div_self (by linarith)
  rw [← hN, ← hraw]
  refine (normalize_fill_row ?_ j).trans ?_
  · by_contra hall
    push Not at hall
    rw [sum_congr rfl fun l _ => hall l] at hsum
    simp at hsum
  · rw [hsum, div_one]

theorem fitSequence_map_hyper [FloorRing K] {possible sequence param : PyVal K} (h : param ≠ .none) :
    fitSequence (.str "map") possible sequence param =
      (validateLabelsInput possible none >>= fun labels =>
        validateSequence sequence labels >>= fun seq =>
        validateHyper param labels.length >>= fun H =>
        pure ⟨labels.length, fitMap labels.length seq H, labels⟩) := by
  cases param <;> first | rfl | exact absurd rfl h

/-- `fit_sequence` accepts the labels of a valid chain and the simulated run of two or more states, and the
rows of observed states are the weighted frequencies. -/
theorem fitSequence_weights [FloorRing K] {c : MC K} (hc : c.Valid) {type param : PyVal K}
    {α : Fin c.n → Fin c.n → K} (hα : PriorWeights type param c.n α) :
    ∃ est : List (Fin c.n) → Matrix (Fin c.n) (Fin c.n) K,
      (∀ w b, 2 ≤ w.length → fitSequence type (pyStrings c.states) (render c.states b w).toPy param =
        .ok ⟨c.n, est w, c.states⟩) ∧
      ∀ w i, 0 < ∑ l, transitionCount w i l → ∀ j, est w i j = ((transitionCount w i j : K) + α i j) /
        (((∑ l, transitionCount w i l : ℕ) : K) + ∑ l, α i l) := by
  obtain ⟨n, p, states⟩ := c
  obtain ⟨hn, -, hv⟩ := hc
  obtain rfl : states.length = n := hv.1
  simp only at hn hv α hα ⊢
  have h1 : validateLabelsInput (pyStrings states : PyVal K) none = .ok states := by
    have h := (validateLabelsInput_pyStrings (K := K) hn).2 ⟨hv, rfl⟩
    unfold validateLabelsInput pyStrings at h ⊢
    rw [R.ite_throw, R.ite_throw, R.ite_throw, R.ite_throw] at h
    rw [R.ite_throw, R.ite_throw, R.ite_throw]
    exact ⟨h.1, h.2.1, h.2.2.1, h.2.2.2.2⟩
  rcases hα with ⟨rfl, hp, rfl⟩ | ⟨rfl, rfl, rfl⟩ | ⟨rfl, rfl, rfl⟩ | ⟨rfl, H, hp, hH, rfl⟩
  · refine ⟨fun w => fitMle states.length (w.map Fin.val) false, fun w b hw => ?_, fun w i h j => ?_⟩
    · unfold fitSequence
      rw [h1]
      change (validateSequence _ _ >>= _) = _
      rw [validateSequence_run hv b hw]
      rcases hp with rfl | rfl <;> rfl
    · exact fitMle_weights false h j
  · refine ⟨fun w => fitMle states.length (w.map Fin.val) true, fun w b hw => ?_, fun w i h j => ?_⟩
    · unfold fitSequence
      rw [h1]
      change (validateSequence _ _ >>= _) = _
      rw [validateSequence_run hv b hw]
      rfl
    · exact fitMle_weights true h j
  · refine ⟨fun w => fitMap states.length (w.map Fin.val) (Matrix.of fun _ _ => 1), fun w b hw => ?_,
      fun w i h j => ?_⟩
    · unfold fitSequence
      rw [h1]
      change (validateSequence _ _ >>= _) = _
      rw [validateSequence_run hv b hw]
      rfl
    · refine (fitMap_weights (fun _ _ => le_rfl) h j).trans ?_
      simp
  · refine ⟨fun w => fitMap states.length (w.map Fin.val) H, fun w b hw => ?_, fun w i h j => ?_⟩
    · have h2 := (C121_hyperparameter (by omega) param H).2 ⟨hp, hH⟩
      have h3 : param ≠ .none := by
        rintro rfl
        rcases hp with h | ⟨s, h, -⟩ <;> cases h
      rw [fitSequence_map_hyper h3, h1]
      change (validateSequence _ _ >>= _) = _
      rw [validateSequence_run hv b hw]
      change (validateHyper param states.length >>= _) = _
      rw [h2]
      rfl
    · refine fitMap_weights (fun i j => ?_) h j
      obtain ⟨z, h5, h6⟩ := hH i j
      rw [h6]
      exact_mod_cast h5

/-- C123. If the chain has one communicating class, then `fit_sequence` with either method, with or without
smoothing and with any accepted hyper-parameter, recovers its transition probabilities from a simulated run
with high probability: each entry is off by `e` or more with probability at most `C (1 + 1 / e²) / s` after
`s` steps, where `C` depends neither on the steps nor on the initial state. -/
theorem C123_consistent {c : MC ℝ} (hc : c.Valid) [NeZero c.n] (hirr : Irreducible c.p) {type param : PyVal ℝ}
    {α : Fin c.n → Fin c.n → ℝ} (hα : PriorWeights type param c.n α) :
    ∃ C : ℝ, ∀ (start : Fin c.n) {steps initialState : PyVal ℝ} {s : ℤ} {i : Option (Fin c.n)},
      validateInteger steps (some (2, false)) none = .ok s → OptionalState initialState c.states i →
      ∃ est : (ℕ → ℝ) → Matrix (Fin c.n) (Fin c.n) ℝ,
        (∀ u b, ∃ out, simulate c (cdfChoice u) start steps initialState .none (.bool b) = .ok out ∧
          fitSequence type (pyStrings c.states) out.toPy param = .ok ⟨c.n, est u, c.states⟩) ∧
        ∀ e > 0, ∀ i j, Measure.infinitePi (fun _ : ℕ => uniformDraw)
          {u | e ≤ |est u i j - c.p i j|} ≤ ENNReal.ofReal (C * (1 + 1 / e ^ 2) / s.toNat) := by
  obtain ⟨-, h3, h2⟩ := gthSolve_stationary (by have := hc.1; omega) hc.2.1 hirr
  obtain ⟨z, -, hz⟩ := ergodic_fundamental (P := c.p) hc.2.1 hirr h2
  obtain ⟨est, hest1, hest2⟩ := fitSequence_weights hc hα
  choose C hC0 hC using fun q : Fin c.n × Fin c.n =>
    weighted_moves_concentrate (P := c.p) hc.2.1 h3 hz α hα.nonneg q.1 q.2
  refine ⟨∑ q, C q, fun start {steps initialState s i} hs hi => ?_⟩
  have hs2 := (validateInteger_ge hs).2
  obtain ⟨a, ha⟩ : ∃ a, a = i.getD start := ⟨_, rfl⟩
  have hlen : ∀ u, 2 ≤ (mcSimulate (cdfChoice u) c.p s.toNat a none).length := by
    intro u
    obtain ⟨k, hk⟩ := Nat.exists_eq_add_of_le (show 1 ≤ s.toNat by omega)
    rw [hk, Nat.add_comm]
    simp [mcSimulate, simulateLoop]
  refine ⟨fun u => est (mcSimulate (cdfChoice u) c.p s.toNat a none),
    fun u b => ⟨_, simulate_eq (cdfChoice u) start hs hi (Or.inl ⟨rfl, rfl⟩) b, ?_⟩, fun e he p q => ?_⟩
  · rw [← ha]
    exact hest1 _ b (hlen u)
  · rw [mcSimulate_law hc s.toNat a none fun w => e ≤ |est w p q - c.p p q|]
    refine ENNReal.ofReal_le_ofReal ?_
    have h4 : C (p, q) ≤ ∑ q, C q := single_le_sum (fun q _ => hC0 q) (mem_univ (p, q))
    refine (hC (p, q) s.toNat e (by omega) he a _ fun l _ h hpos => ?_).trans ?_
    · rw [stopAt_none, hest2 _ _ hpos] at h
      exact h
    · gcongr

/-- The hypotheses of `C123_consistent` can be met. -/
example : (exSymmetric (1 / 3)).Valid ∧ Irreducible (exSymmetric (1 / 3)).p ∧
    PriorWeights (.str "mle" : PyVal ℝ) (.bool true) 2 (fun _ _ => 1 / 1000) ∧
    PriorWeights (.str "map" : PyVal ℝ) (pyArray (Matrix.of fun _ _ : Fin 2 => 3)) 2
      (fun i j => (Matrix.of fun _ _ : Fin 2 => (3 : ℝ)) i j - 1) :=
  ⟨exSymmetric_valid (by norm_num) (by norm_num), (swapP_ergodic (q := 1 / 3) (by norm_num) (by norm_num)).1,
    Or.inr (Or.inl ⟨rfl, rfl, rfl⟩),
    Or.inr (Or.inr (Or.inr ⟨rfl, _, Or.inl rfl, fun _ _ => ⟨3, by norm_num, by simp⟩, rfl⟩))⟩

end Verif
