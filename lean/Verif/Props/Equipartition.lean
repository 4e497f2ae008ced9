import Verif.Props.LongRun
import Verif.Props.Entropy

/-!
# Entropy of simulated runs (C122)
-/

set_option linter.unusedSectionVars false

namespace Verif

open Finset MeasureTheory

variable {K : Type} [Field K] [LinearOrder K] [IsStrictOrderedRing K]

/-! ## Averages along the path -/

/-- Only paths of positive probability count. -/
theorem prob_mono_walks {ι : Type*} [Fintype ι] {P : ι → ι → K} (hP : ∀ i j, 0 ≤ P i j) {k : ℕ} {i : ι}
    {E F : List ι → Prop} [DecidablePred E] [DecidablePred F]
    (h : ∀ l, l.length = k → 0 < walkProb P (i :: l) → E l → F l) : prob P k i E ≤ prob P k i F := by
  induction k generalizing i E F with
  | zero =>
    unfold prob
    simp only [expect]
    by_cases hE : E []
    · rw [if_pos hE, if_pos (h [] rfl (by simp [walkProb]) hE)]
    · rw [if_neg hE]
      split <;> norm_num
  | succ k ih =>
    unfold prob
    simp only [expect]
    refine sum_le_sum fun j _ => ?_
    rcases (hP i j).eq_or_lt with h0 | h0
    · rw [← h0, zero_mul, zero_mul]
    · refine mul_le_mul_of_nonneg_left ?_ h0.le
      refine ih (E := fun l => E (j :: l)) (F := fun l => F (j :: l)) fun l hl hw => h (j :: l) (by simp [hl]) ?_
      simp only [walkProb]
      exact mul_pos h0 hw

theorem moveSum_sub {ι : Type*} (g : ι → ι → K) (m : K) (i : ι) (l : List ι) :
    moveSum (fun a b => g a b - m) (i :: l) = moveSum g (i :: l) - l.length * m := by
  induction l generalizing i with
  | nil => simp [moveSum]
  | cons a l ih =>
    simp only [moveSum, ih, List.length_cons]
    push_cast
    ring

/-- The average of `g` over the moves of an irreducible chain concentrates at its mean under the stationary
distribution. -/
theorem average_concentrates {ι : Type*} [Fintype ι] [DecidableEq ι] {P : Matrix ι ι K} (hP : IsStochastic P)
    {x : ι → K} {z : ι → ι → K}
    (hz : ∀ i j, ∑ k, P i k * z k j = z i j + x j - (1 : Matrix ι ι K) i j) (g : ι → ι → K) :
    ∃ C, 0 ≤ C ∧ ∀ (k : ℕ) (e : K), 0 < k → 0 < e → ∀ (i : ι) (E : List ι → Prop) [DecidablePred E],
      (∀ l, l.length = k → 0 < walkProb P (i :: l) → E l →
        e ≤ |moveSum g (i :: l) / k - ∑ a, x a * ∑ b, P a b * g a b|) →
      prob P k i E ≤ C / (e ^ 2 * k) := by
  obtain ⟨m, hm⟩ : ∃ m, m = ∑ a, x a * ∑ b, P a b * g a b := ⟨_, rfl⟩
  obtain ⟨C, hC, h⟩ := path_concentrates hP (g := fun a b => g a b - m)
    (w := fun a => ∑ j, z a j * ∑ b, P j b * g j b) (fun _ => 0) (fun a => by
      have h1 : ∑ b, P a b * ∑ j, z b j * ∑ q, P j q * g j q =
          (∑ j, z a j * ∑ q, P j q * g j q) + m - ∑ q, P a q * g a q := by
        simp only [mul_sum (s := univ) (f := fun j => _ * ∑ q, P j q * g j q), ← mul_assoc]
        rw [sum_comm]
        simp only [← sum_mul, hz]
        rw [hm, ← sum_add_distrib]
        simp only [sub_mul, add_mul, sum_sub_distrib, Matrix.one_apply, ite_mul, one_mul, zero_mul,
          sum_ite_eq, mem_univ, if_true]
      have h2 : ∀ b, P a b * (g a b - m + (∑ j, z b j * ∑ q, P j q * g j q) -
          ∑ j, z a j * ∑ q, P j q * g j q) = P a b * g a b + P a b * (∑ j, z b j * ∑ q, P j q * g j q) -
          P a b * (m + ∑ j, z a j * ∑ q, P j q * g j q) := fun b => by ring
      simp only [h2]
      rw [sum_sub_distrib, sum_add_distrib, h1, ← sum_mul, hP.2 a]
      ring)
  refine ⟨C, hC, fun k e hk he i E _ hE => ?_⟩
  have hk' : (0 : K) < k := by exact_mod_cast hk
  refine (prob_mono_walks hP.1 (F := fun l => e * k ≤ |moveSum (fun a b => g a b - m) (i :: l)|)
    fun l hl hw hl' => ?_).trans (h k e hk he i _ fun l _ hl' => by rwa [add_zero])
  have h3 := hE l hl hw hl'
  rw [← hm] at h3
  have h4 : moveSum g (i :: l) / k - m = (moveSum g (i :: l) - k * m) / k := by field_simp
  rw [h4, abs_div, abs_of_pos hk', le_div_iff₀ hk'] at h3
  rwa [moveSum_sub, hl]

/-! ## Entropy -/

theorem log_walkProb {ι : Type*} {P : ι → ι → ℝ} (hP : ∀ i j, 0 ≤ P i j) {i : ι} {l : List ι}
    (h : 0 < walkProb P (i :: l)) :
    -Real.log (walkProb P (i :: l)) = moveSum (fun a b => -Real.log (P a b)) (i :: l) := by
  induction l generalizing i with
  | nil => simp [walkProb, moveSum]
  | cons a l ih =>
    simp only [walkProb, moveSum] at h ⊢
    have h1 : P i a ≠ 0 := by
      intro h0
      rw [h0, zero_mul] at h
      exact lt_irrefl _ h
    have h2 : walkProb P (a :: l) ≠ 0 := by
      intro h0
      rw [h0, mul_zero] at h
      exact lt_irrefl _ h
    have h3 : 0 < walkProb P (a :: l) := by
      rcases (hP i a).eq_or_lt with h4 | h4
      · exact absurd h4.symm h1
      · exact (mul_pos_iff_of_pos_left h4).1 h
    rw [Real.log_mul h1 h2, ← ih h3]
    ring

/-- The mean of the surprise of one step is the entropy rate. -/
theorem rate_eq (c : MC ℝ) (x : Fin c.n → ℝ) :
    ∑ a, x a * ∑ b, c.p a b * -Real.log (c.p a b) = rate c x := by
  unfold rate entropy
  simp only [Real.negMulLog_def, neg_mul, mul_neg]

theorem sequenceProbability_run {c : MC ℝ} (hc : c.Valid) (b : Bool) {w : List (Fin c.n)} (hw : 2 ≤ w.length) :
    sequenceProbability c (render c.states b w).toPy = .ok (walkProb c.p w) := by
  have h : validateSequence ((render c.states b w).toPy : PyVal ℝ) c.states = .ok (w.map Fin.val) := by
    obtain ⟨n, p, states⟩ := c
    obtain ⟨-, -, hv⟩ := hc
    obtain rfl : states.length = n := hv.1
    exact validateSequence_run hv b hw
  obtain ⟨w', h1, -, h2⟩ := C55_sequence_probability hc h
  rw [List.map_injective_iff.2 Fin.val_injective h1] at h2
  exact h2

/-- C122, equipartition. If the chain has one communicating class, then the probability of a simulated run
of `s` steps, as given by `sequence_probability`, is about `exp (- s * r)` with high probability, where `r`
is the entropy rate: minus its logarithm, divided by the number of steps, differs from `r` by `e` or more
with probability at most `C / (e² s)`. Negative results of `entropy_rate` are those of C52_negative. -/
theorem C122_equipartition {c : MC ℝ} (hc : c.Valid) [NeZero c.n] {sccs : List (List (Fin c.n))}
    (h : IsClasses c.p sccs) (hirr : isIrreducible c sccs = true) {r : ℝ}
    (hr : entropyRate c sccs = .ok (some r)) (hr0 : 0 ≤ r) :
    ∃ C : ℝ, ∀ (start : Fin c.n) {steps initialState : PyVal ℝ} {s : ℤ} {i : Option (Fin c.n)},
      validateInteger steps (some (2, false)) none = .ok s → OptionalState initialState c.states i →
      ∃ q : (ℕ → ℝ) → ℝ,
        (∀ u b, ∃ out, simulate c (cdfChoice u) start steps initialState .none (.bool b) = .ok out ∧
          sequenceProbability c out.toPy = .ok (q u)) ∧
        ∀ e > 0, Measure.infinitePi (fun _ : ℕ => uniformDraw)
          {u | e ≤ |-Real.log (q u) / s.toNat - r|} ≤ ENNReal.ofReal (C / (e ^ 2 * s.toNat)) := by
  have hi := (C30_irreducible hc h).1 hirr
  obtain ⟨x, -, h2, -, h3⟩ := C34_stationary hc h hi
  obtain ⟨z, -, hz⟩ := ergodic_fundamental (P := c.p) hc.2.1 hi h2
  have hrx : r = rate c x := by
    rw [entropyRate_run hc h h2 h3] at hr
    have h4 := Option.some.inj (Except.ok.inj hr)
    have h5 := (rate_bounds hc h2.1).1
    split at h4 <;> linarith
  obtain ⟨C, hC0, hC⟩ := average_concentrates (P := c.p) hc.2.1 hz fun a b => -Real.log (c.p a b)
  refine ⟨C, fun start {steps initialState s i} hs hi => ?_⟩
  have hs2 := (validateInteger_ge hs).2
  obtain ⟨a, ha⟩ : ∃ a, a = i.getD start := ⟨_, rfl⟩
  have hlen : ∀ u, 2 ≤ (mcSimulate (cdfChoice u) c.p s.toNat a none).length := by
    intro u
    obtain ⟨k, hk⟩ := Nat.exists_eq_add_of_le (show 1 ≤ s.toNat by omega)
    rw [hk, Nat.add_comm]
    simp [mcSimulate, simulateLoop]
  refine ⟨fun u => walkProb c.p (mcSimulate (cdfChoice u) c.p s.toNat a none),
    fun u b => ⟨_, simulate_eq (cdfChoice u) start hs hi (Or.inl ⟨rfl, rfl⟩) b, ?_⟩, fun e he => ?_⟩
  · rw [← ha]
    exact sequenceProbability_run hc b (hlen u)
  · rw [mcSimulate_law hc s.toNat a none fun w => e ≤ |-Real.log (walkProb c.p w) / s.toNat - r|]
    refine ENNReal.ofReal_le_ofReal ?_
    refine hC s.toNat e (by omega) he a _ fun l _ hw hE => ?_
    rw [stopAt_none, log_walkProb hc.2.1.1 hw, hrx, ← rate_eq] at hE
    exact hE

theorem block_step {ι : Type*} [Fintype ι] {P : ι → ι → ℝ} (hP : IsStochastic P) (k : ℕ) (i : ι) :
    ∑ v : Fin (k + 1) → ι, Real.negMulLog (walkProb P (i :: List.ofFn v)) =
      ∑ j, Real.negMulLog (P i j) +
        ∑ j, P i j * ∑ v : Fin k → ι, Real.negMulLog (walkProb P (j :: List.ofFn v)) := by
  rw [← (Fin.consEquiv fun _ => ι).sum_comp, Fintype.sum_prod_type, ← sum_add_distrib]
  refine sum_congr rfl fun j _ => ?_
  have h1 : ∑ v : Fin k → ι, walkProb P (j :: List.ofFn v) = 1 := by
    have h := expect_eq_sum_walks P k j fun _ => 1
    rw [expect_const hP] at h
    simpa using h.symm
  simp only [Fin.consEquiv_apply, List.ofFn_succ, Fin.cons_zero, Fin.cons_succ, walkProb,
    Real.negMulLog_mul]
  rw [sum_add_distrib, ← sum_mul, h1, one_mul, mul_sum]

theorem block_sum {ι : Type*} [Fintype ι] {P : ι → ι → ℝ} (hP : IsStochastic P) {x : ι → ℝ}
    (hx : IsStationary P x) (k : ℕ) :
    ∑ i, x i * ∑ v : Fin k → ι, Real.negMulLog (walkProb P (i :: List.ofFn v)) =
      k * ∑ i, x i * entropy (P i) := by
  induction k with
  | zero => simp [walkProb]
  | succ k ih =>
    simp only [block_step hP, mul_add, sum_add_distrib]
    have h1 : ∑ i, x i * ∑ j, P i j * ∑ v : Fin k → ι, Real.negMulLog (walkProb P (j :: List.ofFn v)) =
        ∑ j, x j * ∑ v : Fin k → ι, Real.negMulLog (walkProb P (j :: List.ofFn v)) := by
      simp only [mul_sum (s := univ) (f := fun j => _ * ∑ v : Fin k → ι, _), ← mul_assoc]
      rw [sum_comm]
      refine sum_congr rfl fun j _ => ?_
      rw [← sum_mul, hx.2]
    rw [h1, ih]
    unfold entropy
    push_cast
    ring

/-- C122, blocks. The entropy of the first `k + 1` states of a chain in equilibrium is that of one state and
`k` times the entropy rate. -/
theorem C122_blocks {c : MC ℝ} (hc : c.Valid) {sccs : List (List (Fin c.n))}
    (h : IsClasses c.p sccs) {r : ℝ} (hr : entropyRate c sccs = .ok (some r)) (hr0 : 0 ≤ r) :
    ∃ x, pi c sccs = .ok [x] ∧ ∀ k : ℕ,
      entropy (fun q : Fin c.n × (Fin k → Fin c.n) => x q.1 * walkProb c.p (q.1 :: List.ofFn q.2)) =
        entropy x + k * r := by
  rcases pi_cases hc h with ⟨x, h1, h2, h3⟩ | ⟨xs, y, z, h1, h2, h3, h4, h5⟩
  · refine ⟨x, h1, fun k => ?_⟩
    have hrx : r = rate c x := by
      rw [entropyRate_run hc h h2 h3] at hr
      have h4 := Option.some.inj (Except.ok.inj hr)
      have h5 := (rate_bounds hc h2.1).1
      split at h4 <;> linarith
    have hw : ∀ i, ∑ v : Fin k → Fin c.n, walkProb c.p (i :: List.ofFn v) = 1 := by
      intro i
      have h := expect_eq_sum_walks c.p k i fun _ => 1
      rw [expect_const hc.2.1] at h
      simpa using h.symm
    have hb := block_sum (P := c.p) hc.2.1 h2 k
    unfold entropy at hb ⊢
    rw [Fintype.sum_prod_type]
    simp only [Real.negMulLog_mul, sum_add_distrib, ← sum_mul, ← mul_sum, hw, one_mul]
    rw [hrx, hb]
    rfl
  · exfalso
    have := (C52_none hc h).2 ⟨y, z, h3, h4, h5⟩
    rw [this] at hr
    cases hr

/-- The hypotheses of `C122_equipartition` and `C122_blocks` can be met. -/
example : (exSymmetric (1 / 2)).Valid ∧
    IsClasses (exSymmetric (1 / 2)).p ([[0, 1]] : List (List (Fin 2))) ∧
    isIrreducible (exSymmetric (1 / 2)) ([[0, 1]] : List (List (Fin 2))) = true ∧
    entropyRate (exSymmetric (1 / 2)) ([[0, 1]] : List (List (Fin 2))) = .ok (some (Real.log 2)) ∧
    0 ≤ Real.log 2 := by
  have h1 := swapP_classes (q := 1 / 2) (by norm_num) (by norm_num)
  have h2 := (swapP_ergodic (q := 1 / 2) (by norm_num) (by norm_num)).1
  have hv : (exSymmetric (1 / 2)).Valid := exSymmetric_valid (by norm_num) (by norm_num)
  refine ⟨hv, h1, (C30_irreducible hv h1).2 h2, ?_, Real.log_nonneg (by norm_num)⟩
  obtain ⟨x, -, hx, -, hu⟩ := C34_stationary hv h1 h2
  have he : ∀ i : Fin 2, entropy (swapP (1 / 2) i) = Real.log 2 := by
    intro i
    unfold entropy
    rw [Fin.sum_univ_two]
    have hl : Real.log (1 / 2) = -Real.log 2 := by rw [one_div, Real.log_inv]
    have hh : (1 - 1 / 2 : ℝ) = 1 / 2 := by norm_num
    fin_cases i <;> simp only [swapP, Real.negMulLog, Matrix.of_apply, Matrix.cons_val', Matrix.cons_val_zero,
      Matrix.cons_val_one, Fin.zero_eta, Fin.mk_one, hh, hl] <;> ring
  have hr : rate (exSymmetric (1 / 2)) x = Real.log 2 := by
    have h3 : ∀ y : Fin 2 → ℝ, ∑ i, y i = 1 → ∑ i, y i * entropy (swapP (1 / 2) i) = Real.log 2 := by
      intro y hy
      simp only [he]
      rw [← sum_mul, hy, one_mul]
    exact h3 x hx.1.2
  rw [entropyRate_run hv h1 hx hu, hr, if_neg]
  have := Real.log_two_gt_d9
  norm_num at this ⊢
  linarith

end Verif
