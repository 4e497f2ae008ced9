import Verif.Spec.Paths
import Verif.Model.Measures
import Verif.Lemmas.Chain
import Verif.Props.Subchain
import Verif.Props.Stationary
import Verif.Props.Hitting
import Verif.Props.Arguments
import Mathlib.Algebra.Field.GeomSum

/-!
# Rewards, transitions and first passages over a fixed number of steps (C46, C47, C48, C49)
-/

set_option linter.unusedSectionVars false

namespace Verif

open Finset

variable {K : Type} [Field K] [LinearOrder K] [IsStrictOrderedRing K]

/-! ## Expected rewards -/

theorem mcExpectedRewards_eq {n : ℕ} {P : Matrix (Fin n) (Fin n) K}
    (hP : IsStochastic fun i j => P i j) (r : Fin n → K) (k : ℕ) (i : Fin n) :
    mcExpectedRewards P r k i = expect (fun i j => P i j) k i fun w => ((i :: w).map r).sum := by
  induction k generalizing i with
  | zero => simp [mcExpectedRewards, expect]
  | succ k ih =>
    simp only [mcExpectedRewards, expect, List.map_cons, List.sum_cons]
    have h1 : r i = ∑ j, P i j * r i := by
      rw [← Finset.sum_mul]
      have := hP.2 i
      simp only at this
      rw [this, one_mul]
    conv_lhs => rw [h1, ← Finset.sum_add_distrib]
    refine Finset.sum_congr rfl fun j _ => ?_
    rw [expect_add, expect_const hP, ih]
    simp only [List.map_cons, List.sum_cons]
    ring

/-- C46. The result is the expected total reward at the times `0, …, steps`. -/
theorem C46_expected_rewards {c : MC K} (hc : c.Valid) {steps rewards : PyVal K} {s : ℤ}
    {r : List K} (hs : validateInteger steps (some (0, true)) none = .ok s)
    (hr : validateRewards rewards c.n = .ok r) :
    1 ≤ s ∧ ∃ er, expectedRewards c steps rewards = .ok er ∧
      ∀ i, er i = expect c.p s.toNat i fun w => ((i :: w).map (listVec r c.n)).sum := by
  refine ⟨((C03_steps_positive _ _).1 hs).2, mcExpectedRewards c.p (listVec r c.n) s.toNat, ?_, fun i => ?_⟩
  · unfold expectedRewards
    rw [hs]
    change (validateRewards rewards c.n >>= _) = _
    rw [hr]
    rfl
  · exact mcExpectedRewards_eq hc.2.1 _ _ i

example : expectedRewards exLoop (.int 2) (.list [.int 1, .int 3]) =
    .ok (![1 + 3 + 2, 3 + 2 + 5 / 2] : Fin 2 → ℚ) := by
  have h : mcExpectedRewards exLoop.p (listVec [1, 3] 2) 2 =
      (![1 + 3 + 2, 3 + 2 + 5 / 2] : Fin 2 → ℚ) := by
    have h0 : mcExpectedRewards exLoop.p (listVec [1, 3] 2) 2 (0 : Fin 2) = 1 + 3 + 2 := by
      decide +kernel
    have h1 : mcExpectedRewards exLoop.p (listVec [1, 3] 2) 2 (1 : Fin 2) = 3 + 2 + 5 / 2 := by
      decide +kernel
    have : ∀ i : Fin 2, mcExpectedRewards exLoop.p (listVec [1, 3] 2) 2 i =
      (![1 + 3 + 2, 3 + 2 + 5 / 2] : Fin 2 → ℚ) i := by
      intro i
      fin_cases i
      · exact h0
      · exact h1
    exact funext this
  rw [← h]
  rfl

/-! ## Expected transitions -/

section Moves

variable {n : ℕ} {P : Matrix (Fin n) (Fin n) K}

theorem expectedMoves_succ (hP : IsStochastic fun i j => P i j) (d : Fin n → K) (k : ℕ)
    (i j : Fin n) : expectedMoves (fun i j => P i j) d (k + 1) i j =
      d i * P i j + expectedMoves (fun i j => P i j) (Matrix.vecMul d P) k i j := by
  unfold expectedMoves
  have h1 : ∀ s, expect (fun i j => P i j) (k + 1) s (fun w => (countMoves i j (s :: w) : K)) =
      (if s = i then P i j else 0) +
        ∑ a, P s a * expect (fun i j => P i j) k a fun w => (countMoves i j (a :: w) : K) := by
    intro s
    simp only [expect, countMoves, Nat.cast_add]
    have h2 : (if s = i then P i j else 0) = ∑ a, P s a * (if s = i ∧ a = j then (1 : K) else 0) := by
      by_cases hs : s = i
      · subst hs; simp
      · simp [hs]
    rw [h2, ← Finset.sum_add_distrib]
    refine Finset.sum_congr rfl fun a _ => ?_
    rw [expect_add, expect_const hP]
    push_cast
    ring
  simp only [h1, mul_add, Finset.sum_add_distrib]
  congr 1
  · simp
  · change _ = ∑ s, (∑ a, d a * P a s) * _
    simp only [Finset.mul_sum, Finset.sum_mul]
    rw [Finset.sum_comm]
    exact Finset.sum_congr rfl fun a _ => Finset.sum_congr rfl fun s _ => by ring

/-- The expected number of moves is the expected number of visits times the probability of the
move. -/
theorem expectedMoves_eq (hP : IsStochastic fun i j => P i j) (d : Fin n → K) (k : ℕ)
    (i j : Fin n) : expectedMoves (fun i j => P i j) d k i j =
      (∑ t ∈ range k, Matrix.vecMul d (P ^ t) i) * P i j := by
  induction k generalizing d with
  | zero => simp [expectedMoves, expect, countMoves]
  | succ k ih =>
    rw [expectedMoves_succ hP, ih, Finset.sum_range_succ', add_comm, add_mul, pow_zero,
      Matrix.vecMul_one]
    congr 2
    refine Finset.sum_congr rfl fun t _ => ?_
    rw [Matrix.vecMul_vecMul, ← pow_succ']

/-- All moves together are as many as the steps. -/
theorem expectedMoves_total (hP : IsStochastic fun i j => P i j) {d : Fin n → K} (hd : IsDist d)
    (k : ℕ) : ∑ i, ∑ j, expectedMoves (fun i j => P i j) d k i j = k := by
  induction k generalizing d with
  | zero => simp [expectedMoves, expect, countMoves]
  | succ k ih =>
    simp only [expectedMoves_succ hP, Finset.sum_add_distrib]
    have h1 : IsDist (Matrix.vecMul d P) := hd.vecMul hP
    rw [ih h1]
    have h2 : ∀ i, ∑ j, d i * P i j = d i := fun i => by
      rw [← Finset.mul_sum]
      have := hP.2 i
      simp only at this
      rw [this, mul_one]
    rw [Finset.sum_congr rfl fun i _ => h2 i, hd.2]
    push_cast
    ring

/-- What is assumed of `rdl_decomposition`: a diagonalisation of the matrix. The code obtains it from
`numpy.linalg.eig` and `inv`, and keeps the real parts only: for matrices with complex eigenvalues or
without a basis of eigenvectors this assumption fails. -/
def Rdl.Sound (P : Matrix (Fin n) (Fin n) K) (rdl : Rdl K n) : Prop :=
  rdl.l * rdl.r = 1 ∧ P = rdl.r * Matrix.diagonal rdl.q * rdl.l

theorem Rdl.pow {rdl : Rdl K n} (h : rdl.Sound P) (t : ℕ) :
    P ^ t = rdl.r * Matrix.diagonal (fun k => rdl.q k ^ t) * rdl.l := by
  induction t with
  | zero =>
    have : Matrix.diagonal (fun k => rdl.q k ^ 0) = 1 := by simp
    rw [this, Matrix.mul_one, pow_zero, mul_eq_one_comm.1 h.1]
  | succ t ih =>
    rw [_root_.pow_succ, ih]
    conv_lhs => rw [h.2]
    have h1 : rdl.r * Matrix.diagonal (fun k => rdl.q k ^ t) * rdl.l *
        (rdl.r * Matrix.diagonal rdl.q * rdl.l) =
        rdl.r * (Matrix.diagonal (fun k => rdl.q k ^ t) * (rdl.l * rdl.r) *
          Matrix.diagonal rdl.q) * rdl.l := by
      simp only [Matrix.mul_assoc]
    rw [h1, h.1, Matrix.mul_one, Matrix.diagonal_mul_diagonal]
    simp only [_root_.pow_succ]

theorem geometricSum_eq (q : K) (s : ℕ) : geometricSum q s = ∑ t ∈ range s, q ^ t := by
  unfold geometricSum
  split
  · rename_i h; subst h; simp
  · rename_i h
    rw [geom_sum_eq h, ← neg_sub q 1, ← neg_sub (q ^ s) 1, neg_div_neg_eq]

theorem Rdl.geometric {rdl : Rdl K n} (h : rdl.Sound P) (s : ℕ) :
    rdl.r * Matrix.diagonal (fun k => geometricSum (rdl.q k) s) * rdl.l =
      ∑ t ∈ range s, P ^ t := by
  simp only [Rdl.pow h]
  rw [← Finset.sum_mul, ← Finset.mul_sum]
  congr 2
  ext i j
  rw [Matrix.sum_apply]
  by_cases hij : i = j
  · subst hij
    simp [geometricSum_eq]
  · simp [hij]

theorem vecMul_sum_pow (d : Fin n → K) (s : ℕ) (i : Fin n) :
    Matrix.vecMul d (∑ t ∈ range s, P ^ t) i = ∑ t ∈ range s, Matrix.vecMul d (P ^ t) i := by
  induction s with
  | zero => simp
  | succ s ih => rw [Finset.sum_range_succ, Matrix.vecMul_add, Pi.add_apply, ih,
      Finset.sum_range_succ]

end Moves

theorem mcExpectedTransitions_small {n : ℕ} (P : Matrix (Fin n) (Fin n) K) (rdl : Rdl K n) {s : ℕ}
    (d : Fin n → K) (h : s ≤ n) (i j : Fin n) :
    mcExpectedTransitions P rdl s d i j = idistSum P d (s - 1) i * P i j := by
  unfold mcExpectedTransitions
  rw [if_pos h]

theorem mcExpectedTransitions_large {n : ℕ} (P : Matrix (Fin n) (Fin n) K) (rdl : Rdl K n) {s : ℕ}
    (d : Fin n → K) (h : ¬ s ≤ n) (i j : Fin n) :
    mcExpectedTransitions P rdl s d i j = Matrix.vecMul d (rdl.r *
      Matrix.diagonal (fun k => geometricSum (rdl.q k) s) * rdl.l) i * P i j := by
  unfold mcExpectedTransitions
  rw [if_neg h]

/-- C47 (partial). The result is right for one or two steps, and, if the eigendecomposition is right,
for more steps than there are states. -/
theorem C47_expected_transitions_partial {c : MC K} (hc : c.Valid) {rdl : Rdl K c.n}
    {steps : PyVal K} {d : Option (PyVal K)} {s : ℤ} {x : Fin c.n → K}
    (hs : validateInteger steps (some (0, true)) none = .ok s)
    (hd : initialDistribution c.n d = .ok x)
    (h : (s ≤ 2 ∧ s ≤ c.n) ∨ ((c.n : ℤ) < s ∧ rdl.Sound c.p)) :
    1 ≤ s ∧ ∃ et, expectedTransitions c rdl steps d = .ok et ∧
      ∀ i j, et i j = expectedMoves c.p x s.toNat i j := by
  have hs1 := ((C03_steps_positive _ _).1 hs).2
  refine ⟨hs1, mcExpectedTransitions c.p rdl s.toNat x, ?_, fun i j => ?_⟩
  · unfold expectedTransitions
    rw [hs]
    change (initialDistribution c.n d >>= _) = _
    rw [hd]
    rfl
  · refine Eq.trans ?_ (expectedMoves_eq (P := c.p) hc.2.1 x s.toNat i j).symm
    rcases h with ⟨h2, hn⟩ | ⟨hn, hrdl⟩
    · refine (mcExpectedTransitions_small c.p rdl x (by omega) i j).trans ?_
      congr 1
      have : s = 1 ∨ s = 2 := by omega
      rcases this with rfl | rfl
      · simp [idistSum]
      · change x i + ∑ k, x k * c.p k i = ∑ t ∈ range 2, _
        rw [Finset.sum_range_succ, Finset.sum_range_one, pow_zero, pow_one, Matrix.vecMul_one]
        rfl
    · refine (mcExpectedTransitions_large c.p rdl x (by omega) i j).trans ?_
      rw [Rdl.geometric hrdl, vecMul_sum_pow]

theorem idistSum_total {n : ℕ} {P : Matrix (Fin n) (Fin n) K} (hP : IsStochastic fun i j => P i j)
    {d : Fin n → K} (hd : IsDist d) (k : ℕ) : ∑ i, idistSum P d k i = 2 ^ k := by
  induction k with
  | zero => simpa [idistSum] using hd.2
  | succ k ih =>
    simp only [idistSum, Finset.sum_add_distrib]
    rw [Finset.sum_comm]
    have h2 : ∀ i, ∑ j, idistSum P d k i * P i j = idistSum P d k i := fun i => by
      rw [← Finset.mul_sum]
      have := hP.2 i
      simp only at this
      rw [this, mul_one]
    rw [Finset.sum_congr rfl fun i _ => h2 i, ih, _root_.pow_succ]
    ring

/-- C47 fails: for every chain, initial distribution and number of steps from three up to the number
of states the entries of the result sum to a power of two instead of the number of steps, because two
names of the code denote the same array. -/
theorem C47_wrong_total {c : MC K} (hc : c.Valid) {rdl : Rdl K c.n} {steps : PyVal K}
    {d : Option (PyVal K)} {s : ℤ} {x : Fin c.n → K}
    (hs : validateInteger steps (some (0, true)) none = .ok s)
    (hd : initialDistribution c.n d = .ok x) (hx : IsDist x) (h3 : 3 ≤ s) (hn : s ≤ c.n) :
    ∃ et, expectedTransitions c rdl steps d = .ok et ∧
      ∑ i, ∑ j, et i j = 2 ^ (s.toNat - 1) ∧
      ∑ i, ∑ j, expectedMoves c.p x s.toNat i j = s ∧
      ∑ i, ∑ j, et i j ≠ ∑ i, ∑ j, expectedMoves c.p x s.toNat i j := by
  obtain ⟨k, rfl⟩ : ∃ k : ℕ, s = k := ⟨s.toNat, by omega⟩
  have hk : 3 ≤ k := by omega
  have h1 : ∑ i, ∑ j, mcExpectedTransitions c.p rdl k x i j = 2 ^ (k - 1) := by
    have h2 : ∀ i, ∑ j, mcExpectedTransitions c.p rdl k x i j = idistSum c.p x (k - 1) i := by
      intro i
      have h3 : ∀ j, mcExpectedTransitions c.p rdl k x i j = idistSum c.p x (k - 1) i * c.p i j :=
        fun j => mcExpectedTransitions_small c.p rdl x (by omega) i j
      refine (Finset.sum_congr rfl fun j _ => h3 j).trans ?_
      rw [← Finset.mul_sum]
      refine (congrArg (idistSum c.p x (k - 1) i * ·) (hc.2.1.2 i)).trans (mul_one _)
    rw [Finset.sum_congr rfl fun i _ => h2 i]
    exact idistSum_total (P := c.p) hc.2.1 hx _
  have h4 := expectedMoves_total (P := c.p) hc.2.1 hx k
  refine ⟨mcExpectedTransitions c.p rdl k x, ?_, h1, ?_, ?_⟩
  · unfold expectedTransitions
    rw [hs]
    change (initialDistribution c.n d >>= _) = _
    rw [hd]
    rfl
  · refine h4.trans ?_
    push_cast
    rfl
  · intro h5
    have h6 : (2 ^ (k - 1) : K) = k := h1.symm.trans (h5.trans h4)
    have h7 : ((2 ^ (k - 1) : ℕ) : K) = (k : ℕ) := by push_cast; exact h6
    have h8 : 2 ^ (k - 1) = k := by exact_mod_cast h7
    obtain ⟨m, rfl⟩ : ∃ m, k = m + 3 := ⟨k - 3, by omega⟩
    have : ∀ m, m + 3 < 2 ^ (m + 2) := by
      intro m
      induction m with
      | zero => norm_num
      | succ m ih => rw [show m + 1 + 2 = (m + 2) + 1 by ring, _root_.pow_succ]; omega
    have := this m
    rw [show m + 3 - 1 = m + 2 by omega] at h8
    omega

/-- The hypotheses of `C47_expected_transitions_partial` can be met, with more steps than states. -/
example : Rdl.Sound (n := 2) exLoop.p
    ⟨!![1, 2; 1, -1], ![1, -1 / 2], !![1 / 3, 2 / 3; 1 / 3, -1 / 3]⟩ := by
  have h1 : (!![1 / 3, 2 / 3; 1 / 3, -1 / 3] * !![1, 2; 1, -1] : Matrix (Fin 2) (Fin 2) ℚ) = 1 := by
    decide +kernel
  have h2 : (!![0, 1; 1 / 2, 1 / 2] : Matrix (Fin 2) (Fin 2) ℚ) = !![1, 2; 1, -1] *
      Matrix.diagonal ![1, -1 / 2] * !![1 / 3, 2 / 3; 1 / 3, -1 / 3] := by
    decide +kernel
  exact ⟨h1, h2⟩

/-- The hypotheses of `C47_wrong_total` can be met: three steps of the drunkard's walk. -/
example : ∃ x : Fin exDrunkard.n → ℚ, initialDistribution exDrunkard.n none = .ok x ∧ IsDist x ∧ exDrunkard.Valid ∧
    validateInteger (.int 3 : PyVal ℚ) (some (0, true)) none = .ok 3 ∧ (3 : ℤ) ≤ exDrunkard.n := by
  refine ⟨fun _ => 1 / (3 : ℕ), rfl, ?_, by decide +kernel, rfl, le_rfl⟩
  change IsDist (fun _ : Fin 3 => 1 / ((3 : ℕ) : ℚ))
  decide +kernel

/-! ## First passage probabilities -/

section FirstPassage

variable {n : ℕ} {P : Matrix (Fin n) (Fin n) K}

theorem passageMatrix_eq (t : ℕ) (i j : Fin n) : passageMatrix P t i j =
    prob (fun i j => P i j) (t + 1) i (FirstVisitAtEnd (· = j)) := by
  unfold prob
  induction t generalizing i with
  | zero =>
    change P i j = ∑ k, P i k * (if k = j then 1 else 0)
    simp
  | succ t ih =>
    rw [passageMatrix, expect]
    refine Finset.sum_congr rfl fun k _ => ?_
    rw [ih]
    congr 1
    have h1 : expect (fun i j => P i j) (t + 1) k
        (fun w => if FirstVisitAtEnd (· = j) (k :: w) then (1 : K) else 0) =
        expect (fun i j => P i j) (t + 1) k (fun w => (if k = j then 0 else 1) *
          (if FirstVisitAtEnd (· = j) w then (1 : K) else 0)) := by
      refine expect_congr fun w hw => ?_
      cases w with
      | nil => simp at hw
      | cons b w =>
        by_cases hk : k = j
        · simp [FirstVisitAtEnd, hk]
        · simp [FirstVisitAtEnd, hk]
    refine Eq.trans ?_ h1.symm
    rw [expect_smul]
    exact mul_comm _ _

theorem passageMatrix_total (hP : IsStochastic fun i j => P i j) (s : ℕ) (i j : Fin n) :
    ∑ t ∈ range s, passageMatrix P t i j ≤ 1 := by
  induction s generalizing i with
  | zero => simp
  | succ s ih =>
    rw [Finset.sum_range_succ']
    simp only [passageMatrix]
    rw [Finset.sum_comm]
    have h1 : ∀ k, ∑ t ∈ range s, P i k * (passageMatrix P t k j * if k = j then 0 else 1) =
        P i k * ((∑ t ∈ range s, passageMatrix P t k j) * if k = j then 0 else 1) := by
      intro k
      rw [Finset.sum_mul, Finset.mul_sum]
    simp only [h1]
    have h2 : ∑ k, P i k * ((∑ t ∈ range s, passageMatrix P t k j) * if k = j then 0 else 1) ≤
        ∑ k, P i k * (if k = j then 0 else 1) := by
      refine Finset.sum_le_sum fun k _ => mul_le_mul_of_nonneg_left ?_ (hP.1 i k)
      by_cases hk : k = j
      · simp [hk]
      · simpa [hk] using ih k
    have h3 : ∑ k, P i k * (if k = j then 0 else 1) + P i j = 1 := by
      have h4 : P i j = ∑ k, P i k * (if k = j then 1 else 0) := by simp
      rw [h4, ← Finset.sum_add_distrib]
      refine Eq.trans (Finset.sum_congr rfl fun k _ => ?_) (hP.2 i)
      by_cases hk : k = j
      · simp [hk]
      · simp [hk]
    linarith

end FirstPassage

theorem firstPassage_run {c : MC K} {steps initialState states : PyVal K} {s : ℤ} {i : Fin c.n}
    {l : List ℕ} (hs : validateInteger steps (some (0, true)) none = .ok s)
    (hi : validateLabel initialState c.states = .ok i.val)
    (hl : validateLabelsCurrent states c.states false none = .ok l) :
    firstPassageProbabilities c steps initialState states = .ok ((List.range s.toNat).map fun t =>
      ((toStates c.n l).map fun j => passageMatrix c.p t i j).sum) := by
  unfold firstPassageProbabilities
  rw [hs]
  change (validateLabel initialState c.states >>= _) = _
  rw [hi]
  change (validateLabelsCurrent states c.states false none >>= _) = _
  rw [hl]
  change (if h : i.val < c.n then _ else _) = _
  rw [dif_pos i.2]
  rfl

/-- C48 (partial). For a single first passage state the entry of each step is the probability that
its first visit after time zero is at that step, and the entries sum to at most one. -/
theorem C48_single_state_partial {c : MC K} (hc : c.Valid) {steps initialState states : PyVal K}
    {s : ℤ} {i j : Fin c.n} (hs : validateInteger steps (some (0, true)) none = .ok s)
    (hi : validateLabel initialState c.states = .ok i.val)
    (hl : validateLabelsCurrent states c.states false none = .ok [j.val]) :
    1 ≤ s ∧ ∃ z, firstPassageProbabilities c steps initialState states = .ok z ∧
      z = (List.range s.toNat).map (fun t => prob c.p (t + 1) i (FirstVisitAtEnd (· = j))) ∧
      z.sum ≤ 1 := by
  have hj : toStates c.n [j.val] = [j] := by simp [toStates]
  have hz : ((List.range s.toNat).map fun t =>
      ((toStates c.n [j.val]).map fun j => passageMatrix c.p t i j).sum) =
      (List.range s.toNat).map fun t => passageMatrix c.p t i j := by
    rw [hj]
    refine List.map_congr_left fun t _ => ?_
    simp
  refine ⟨((C03_steps_positive _ _).1 hs).2, _, firstPassage_run hs hi hl, ?_, ?_⟩
  · rw [hz]
    refine List.map_congr_left fun t _ => ?_
    exact passageMatrix_eq (P := c.p) t i j
  · rw [hz]
    have h1 : ((List.range s.toNat).map fun t => passageMatrix c.p t i j).sum =
        ∑ t ∈ range s.toNat, passageMatrix c.p t i j := rfl
    rw [h1]
    exact passageMatrix_total (P := c.p) hc.2.1 _ i j

/-- C48 without first passage states: the entry of each step and state is the probability that the
first visit of that state after time zero is at that step. -/
theorem C48_all_states {c : MC K} {steps initialState : PyVal K} {s : ℤ} {i : Fin c.n}
    (hs : validateInteger steps (some (0, true)) none = .ok s)
    (hi : validateLabel initialState c.states = .ok i.val) :
    firstPassageAll c steps initialState = .ok ((List.range s.toNat).map fun t j =>
      prob c.p (t + 1) i (FirstVisitAtEnd (· = j))) := by
  unfold firstPassageAll
  rw [hs]
  change (validateLabel initialState c.states >>= _) = _
  rw [hi]
  change (if h : i.val < c.n then _ else _) = _
  rw [dif_pos i.2]
  change Except.ok _ = _
  congr 1
  refine List.map_congr_left fun t _ => ?_
  funext j
  exact passageMatrix_eq (P := c.p) t i j

/-- What is returned for a set of first passage states: the sum over the states of the set of the
probabilities of the first visit of that state. -/
theorem C48_sets {c : MC K} {steps initialState states : PyVal K} {s : ℤ} {i : Fin c.n}
    {l : List ℕ} (hs : validateInteger steps (some (0, true)) none = .ok s)
    (hi : validateLabel initialState c.states = .ok i.val)
    (hl : validateLabelsCurrent states c.states false none = .ok l) :
    firstPassageProbabilities c steps initialState states = .ok ((List.range s.toNat).map fun t =>
      ((toStates c.n l).map fun j => prob c.p (t + 1) i (FirstVisitAtEnd (· = j))).sum) := by
  rw [firstPassage_run hs hi hl]
  congr 1
  refine List.map_congr_left fun t _ => ?_
  congr 1
  exact List.map_congr_left fun j _ => passageMatrix_eq (P := c.p) t i j

/-- C48 fails for sets: with two first passage states and two steps the result is `[1, 3/4]`, which
sums to more than one; the first visit of the set is at step one, so the second entry should be
zero. -/
theorem C48_set_exceeds_one :
    firstPassageProbabilities exLoop (.int 2) (.int 1) (.list [.int 0, .int 1]) =
      .ok [1, 3 / 4] ∧
    prob (fun i j : Fin 2 => exLoop.p i j) 2 1 (FirstVisitAtEnd fun _ => True) = 0 ∧
    exLoop.Valid := by
  refine ⟨?_, by decide +kernel, by decide +kernel⟩
  have h := firstPassage_run (c := exLoop) (steps := .int 2) (initialState := .int 1)
    (states := .list [.int 0, .int 1]) (s := 2) (i := (1 : Fin 2)) (l := [0, 1]) rfl rfl rfl
  rw [h]
  have h0 : (([0, 1] : List (Fin 2)).map fun j => passageMatrix exLoop.p 0 (1 : Fin 2) j).sum = (1 : ℚ) := by
    decide +kernel
  have h1 : (([0, 1] : List (Fin 2)).map fun j => passageMatrix exLoop.p 1 (1 : Fin 2) j).sum = (3 / 4 : ℚ) := by
    decide +kernel
  exact congrArg Except.ok (congrArg₂ List.cons h0 (congrArg₂ List.cons h1 rfl))

/-! ## First passage reward -/

section Reward

variable {n : ℕ} {P : Matrix (Fin n) (Fin n) K}

theorem findOffset_eq {S : List (Fin n)} {i : Fin n} (hi : i ∉ S) (k : ℕ) (l : List (Fin n))
    (hl : i ∈ l) : findOffset S i k l = k + (l.filter fun j => decide (j ∉ S)).idxOf i := by
  induction l generalizing k with
  | nil => simp at hl
  | cons j l ih =>
    unfold findOffset
    by_cases hj : j ∈ S
    · rw [if_pos hj]
      have hne : i ≠ j := fun h => hi (h ▸ hj)
      rw [ih k (by simpa [hne] using hl)]
      simp [hj]
    · rw [if_neg hj]
      by_cases hji : j = i
      · subst hji
        rw [if_pos rfl]
        simp [hj]
      · rw [if_neg hji, ih (k + 1) (by simpa [Ne.symm hji] using hl)]
        simp [hj, List.idxOf_cons_ne _ hji]
        ring

theorem rewardPower_eq {m : ℕ} (M : Matrix (Fin m) (Fin m) K) (t : ℕ) :
    rewardPower M t = M ^ (t + 1) := by
  induction t with
  | zero => simp [rewardPower]
  | succ t ih => rw [rewardPower, ih, ← _root_.pow_succ]

/-- The reward before the first visit, one step at a time. -/
theorem expect_rewardBefore (S : List (Fin n)) (hP : IsStochastic fun i j => P i j) (r : Fin n → K)
    (k : ℕ) (i : Fin n) :
    expect (fun i j => P i j) (k + 1) i (rewardBefore (· ∈ S) r) =
      ∑ j, P i j * (if j ∈ S then 0 else
        r j + expect (fun i j => P i j) k j (rewardBefore (· ∈ S) r)) := by
  rw [expect]
  refine Finset.sum_congr rfl fun j _ => ?_
  congr 1
  by_cases hj : j ∈ S
  · rw [if_pos hj]
    refine Eq.trans (expect_congr fun w _ => ?_) (expect_zero _ _ _)
    simp [rewardBefore, hj]
  · rw [if_neg hj, ← expect_const hP k j (r j), ← expect_add]
    refine expect_congr fun w _ => ?_
    simp [rewardBefore, hj]

theorem sum_powers_reward (S : List (Fin n)) (hP : IsStochastic fun i j => P i j) (r : Fin n → K)
    (s : ℕ) (a : Fin (complementIdx S).length) :
    ∑ t ∈ range s, ((subMatrix P (complementIdx S)) ^ (t + 1)).mulVec
      (fun b => r ((complementIdx S).get b)) a =
      expect (fun i j => P i j) s ((complementIdx S).get a) (rewardBefore (· ∈ S) r) := by
  have hnd := complementIdx_nodup S
  induction s generalizing a with
  | zero => simp [expect, rewardBefore]
  | succ s ih =>
    rw [expect_rewardBefore S hP, Finset.sum_range_succ', sum_split hnd]
    have h1 : ∑ j with j ∉ complementIdx S, P ((complementIdx S).get a) j * (if j ∈ S then 0 else
        r j + expect (fun i j => P i j) s j (rewardBefore (· ∈ S) r)) = 0 := by
      refine Finset.sum_eq_zero fun j hj => ?_
      have : j ∈ S := by
        have := (Finset.mem_filter.1 hj).2
        rw [mem_complementIdx] at this
        exact not_not.1 this
      rw [if_pos this, mul_zero]
    rw [h1, add_zero]
    have h2 : ∀ t, ((subMatrix P (complementIdx S)) ^ (t + 1 + 1)).mulVec
        (fun b => r ((complementIdx S).get b)) a =
        ∑ d, P ((complementIdx S).get a) ((complementIdx S).get d) *
          ((subMatrix P (complementIdx S)) ^ (t + 1)).mulVec
            (fun b => r ((complementIdx S).get b)) d := by
      intro t
      rw [pow_succ', ← Matrix.mulVec_mulVec]
      rfl
    simp only [h2]
    rw [Finset.sum_comm, zero_add, pow_one]
    refine (congrArg₂ (· + ·) rfl (show _ = ∑ d, P ((complementIdx S).get a)
      ((complementIdx S).get d) * r ((complementIdx S).get d) from rfl)).trans ?_
    rw [← Finset.sum_add_distrib]
    refine Finset.sum_congr rfl fun d _ => ?_
    rw [← Finset.mul_sum, ih, if_neg (mem_complementIdx.1 (List.get_mem _ d))]
    ring

theorem mcFirstPassageReward_eq (hP : IsStochastic fun i j => P i j) (s : ℕ) {i : Fin n}
    {S : List (Fin n)} (hi : i ∉ S) (r : Fin n → K) : mcFirstPassageReward P s i S r =
      expect (fun i j => P i j) s i (rewardBefore (· ∈ S) r) := by
  have hmem : i ∈ complementIdx S := mem_complementIdx.2 hi
  obtain ⟨a, ha⟩ := List.get_of_mem hmem
  have hoff : findOffset S i 1 (List.finRange n) = 1 + a.val := by
    rw [findOffset_eq hi 1 _ (List.mem_finRange i)]
    congr 1
    change (complementIdx S).idxOf i = a.val
    rw [← ha]
    exact List.Nodup.idxOf_getElem (complementIdx_nodup S) a.1 a.2
  unfold mcFirstPassageReward
  simp only [hoff]
  rw [if_neg (by omega)]
  have h1 : ∀ t, (∑ b : Fin (complementIdx S).length, (if b.val = 1 + a.val - 1 then 1 else 0) *
      ((rewardPower (subMatrix P (complementIdx S)) t).mulVec
        fun b => r ((complementIdx S).get b)) b) =
      ((subMatrix P (complementIdx S)) ^ (t + 1)).mulVec
        (fun b => r ((complementIdx S).get b)) a := by
    intro t
    rw [rewardPower_eq, Finset.sum_eq_single a]
    · rw [if_pos (by omega), one_mul]
    · intro b _ hb
      rw [if_neg (fun h => hb (Fin.ext (by omega))), zero_mul]
    · simp
  simp only [h1]
  rw [sum_powers_reward S hP, ha]

end Reward

/-- C49. The result is the expected sum of the rewards at the times `1, …, steps` before the first
visit of the first passage states. The call succeeds exactly if the arguments are valid, there are
not two states, the initial state is no first passage state, and there is another state besides. -/
theorem C49_first_passage_reward {c : MC K} (hc : c.Valid) {steps init states rewards : PyVal K}
    {s : ℤ} {i : Fin c.n} {l : List ℕ} {r : List K}
    (hs : validateInteger steps (some (0, true)) none = .ok s)
    (hi : validateLabel init c.states = .ok i.val)
    (hl : validateLabelsCurrent states c.states true none = .ok l)
    (hr : validateRewards rewards c.n = .ok r) :
    (c.n ≠ 2 ∧ i.val ∉ l ∧ l.length ≠ c.n - 1 →
      firstPassageReward c steps init states rewards = .ok (expect c.p s.toNat i
        (rewardBefore (fun j => j.val ∈ l) (listVec r c.n)))) ∧
    (¬ (c.n ≠ 2 ∧ i.val ∉ l ∧ l.length ≠ c.n - 1) →
      firstPassageReward c steps init states rewards = .error .valueError) := by
  have hrun : firstPassageReward c steps init states rewards =
      if c.n = 2 then throw .valueError
      else if i.val ∈ l then throw .valueError
      else if l.length = c.n - 1 then throw .valueError
      else pure (mcFirstPassageReward c.p s.toNat i (toStates c.n l) (listVec r c.n)) := by
    unfold firstPassageReward
    rw [hi]
    change (validateLabelsCurrent states c.states true none >>= _) = _
    rw [hl]
    change (validateRewards rewards c.n >>= _) = _
    rw [hr]
    change (validateInteger steps (some (0, true)) none >>= _) = _
    rw [hs]
    change (if c.n = 2 then _ else if i.val ∈ l then _ else if l.length = c.n - 1 then _ else
      if h : i.val < c.n then _ else _) = _
    rw [dif_pos i.2]
  rw [hrun]
  constructor
  · rintro ⟨h1, h2, h3⟩
    rw [if_neg h1, if_neg h2, if_neg h3]
    refine congrArg Except.ok ?_
    refine (mcFirstPassageReward_eq (P := c.p) hc.2.1 _ (fun h => h2 (mem_toStates.1 h)) _).trans ?_
    refine expect_congr fun w _ => ?_
    unfold rewardBefore
    simp only [mem_toStates]
  · intro h
    by_cases h1 : c.n = 2
    · rw [if_pos h1]; rfl
    · rw [if_neg h1]
      by_cases h2 : i.val ∈ l
      · rw [if_pos h2]; rfl
      · rw [if_neg h2]
        by_cases h3 : l.length = c.n - 1
        · rw [if_pos h3]; rfl
        · exact absurd ⟨h1, h2, h3⟩ h

/-- The middle state of the drunkard's walk, with the last state as first passage state. -/
example : firstPassageReward exDrunkard (.int 2) (.int 1) (.int 2) (.list [.int 5, .int 1, .int 1]) =
    .ok 5 := by
  have h := (C49_first_passage_reward (c := exDrunkard) (by decide +kernel) (steps := .int 2)
    (init := .int 1) (states := .int 2) (rewards := .list [.int 5, .int 1, .int 1]) (s := 2)
    (i := (1 : Fin 3)) (l := [2]) (r := [5, 1, 1]) rfl rfl rfl rfl).1 (by decide)
  rw [h]
  have : expect (fun i j : Fin 3 => exDrunkard.p i j) 2 1
      (rewardBefore (fun j => j.val ∈ [2]) (listVec [5, 1, 1] 3)) = 5 := by decide +kernel
  exact congrArg Except.ok this

end Verif
