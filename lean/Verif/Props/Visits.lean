import Verif.Model.Visits
import Verif.Lemmas.Visits
import Verif.Props.Absorption
import Verif.Props.Passage
import Verif.Lemmas.Cast
import Mathlib.Tactic.FinCases

/-!
# Mean numbers of visits (C82)
-/

set_option linter.unusedSectionVars false

namespace Verif

open Finset

variable {K : Type} [Field K] [LinearOrder K] [IsStrictOrderedRing K]

/-- `closed_states` marks the recurrent states. -/
theorem closedState_iff {c : MC K} {sccs : List (List (Fin c.n))}
    (h : IsClasses c.p sccs) (i : Fin c.n) :
    closedState c.p sccs i = true ↔ RecurrentState c.p i := by
  have hk := h.communicatingIdx
  obtain ⟨C, hC, hi⟩ := hk.cover i
  rw [← hk.closed_iff hC hi]
  unfold closedState
  rw [Bool.not_eq_true', List.any_eq_false]
  constructor
  · intro h1 a ha b hab
    have h2 := h1 C hC
    rw [Bool.and_eq_true, decide_eq_true_eq] at h2
    by_contra hb
    refine h2 ⟨hi, ?_⟩
    unfold leaves
    exact decide_eq_true ⟨a, ha, b, hb, decide_eq_true (p := 0 < c.p a b) hab⟩
  · intro h1 D hD
    rw [Bool.and_eq_true, decide_eq_true_eq]
    rintro ⟨hiD, hl⟩
    obtain rfl := hk.eq_of_mem hC hD hi hiD
    unfold leaves at hl
    obtain ⟨a, ha, b, hb, hab⟩ := of_decide_eq_true hl
    exact hb (h1 a ha b (of_decide_eq_true (p := 0 < c.p a b) hab))

/-- The product of the matrix of the system with a vector. -/
theorem visitMatrix_mulVec {n : ℕ} (P : Matrix (Fin n) (Fin n) K) (closed : Fin n → Bool)
    (j i : Fin n) (v : Fin n → K) :
    (visitMatrix P closed j).mulVec v i = if closed i then v i
      else (∑ k, P i k * if k = j then 0 else v k) - v i := by
  have h1 : (visitMatrix P closed j).mulVec v i = ∑ k, visitMatrix P closed j i k * v k := rfl
  rw [h1]
  unfold visitMatrix
  by_cases hcl : closed i = true
  · simp [hcl]
  · simp only [if_neg hcl, sub_mul, Finset.sum_sub_distrib]
    congr 1
    · refine Finset.sum_congr rfl fun k _ => ?_
      by_cases hk : k = j <;> simp [hk]
    · simp

/-- The systems are solvable, and their solutions are the return probabilities. -/
theorem visitColumns_spec {c : MC K} (hc : c.Valid) {sccs : List (List (Fin c.n))}
    (h : IsClasses c.p sccs) :
    ∃ cols, visitColumns c sccs = .ok cols ∧ cols.length = c.n ∧
      ∀ j : Fin c.n, ReturnSystem (fun i k => c.p i k) j (cols.getD j.val (fun _ => 0)) := by
  have hcl := closedState_iff h
  have hcm := (C27_communicating_classes hc h).2.2
  have hsolve : ∀ j : Fin c.n, ∃ x, npSolve (visitMatrix c.p (closedState c.p sccs) j)
      (visitRhs c.p (communicationMatrix c sccs) (closedState c.p sccs) j) = some x ∧
      ReturnSystem (fun i k => c.p i k) j x := by
    intro j
    have hd : (visitMatrix c.p (closedState c.p sccs) j).det ≠ 0 := by
      intro h0
      obtain ⟨d, hd, h1⟩ := Matrix.exists_mulVec_eq_zero_iff.2 h0
      apply hd
      refine returnSystem_kernel (P := fun i k => c.p i k) (j := j) hc.2.1 ?_ ?_
      · intro i hi
        have h2 := congrFun h1 i
        rw [visitMatrix_mulVec, if_pos ((hcl i).2 hi)] at h2
        exact h2
      · intro i hi
        have h2 := congrFun h1 i
        rw [visitMatrix_mulVec, if_neg fun e => hi ((hcl i).1 e), Pi.zero_apply, sub_eq_zero] at h2
        exact h2.symm
    refine ⟨_, if_neg hd, ?_⟩
    obtain ⟨x, hx⟩ : ∃ x, x = (visitMatrix c.p (closedState c.p sccs) j)⁻¹.mulVec
        (visitRhs c.p (communicationMatrix c sccs) (closedState c.p sccs) j) := ⟨_, rfl⟩
    rw [← hx]
    have hu : IsUnit (visitMatrix c.p (closedState c.p sccs) j).det := isUnit_iff_ne_zero.2 hd
    have hmul : (visitMatrix c.p (closedState c.p sccs) j).mulVec x =
        visitRhs c.p (communicationMatrix c sccs) (closedState c.p sccs) j := by
      rw [hx, Matrix.mulVec_mulVec, Matrix.mul_nonsing_inv _ hu, Matrix.one_mulVec]
    have hrow := fun i => congrFun hmul i
    refine ⟨fun i hi hij => ?_, fun i hi hij => ?_, fun i hi => ?_⟩
    · have h2 := hrow i
      rw [visitMatrix_mulVec, if_pos ((hcl i).2 hi)] at h2
      rw [h2]
      unfold visitRhs
      rw [if_pos ((hcl i).2 hi), if_pos]
      rcases hcm i j with h3 | h3
      · exact h3.1
      · exact absurd hij h3.2
    · have h2 := hrow i
      rw [visitMatrix_mulVec, if_pos ((hcl i).2 hi)] at h2
      rw [h2]
      unfold visitRhs
      rw [if_pos ((hcl i).2 hi), if_neg]
      rcases hcm i j with h3 | h3
      · exact absurd h3.2 hij
      · rw [h3.1]; exact Nat.zero_ne_one
    · have hn : ¬ closedState c.p sccs i = true := fun e => hi ((hcl i).1 e)
      have h2 := hrow i
      rw [visitMatrix_mulVec, if_neg hn] at h2
      unfold visitRhs at h2
      rw [if_neg hn] at h2
      have h3 : ∑ k, c.p i k * (if k = j then 1 else x k)
          = c.p i j + ∑ k, c.p i k * (if k = j then 0 else x k) := by
        have h4 : c.p i j = ∑ l, c.p i l * (if l = j then 1 else 0) := by simp
        rw [h4, ← Finset.sum_add_distrib]
        refine Finset.sum_congr rfl fun k _ => ?_
        by_cases hk : k = j <;> simp [hk]
      rw [h3]
      linarith
  choose x h1 h2 using hsolve
  refine ⟨(List.finRange c.n).map x, ?_, by simp, fun j => ?_⟩
  · unfold visitColumns
    refine mapM_R_eq_ok.2 (List.forall₂_map_right_iff.2 (List.forall₂_same.2 fun j _ => ?_))
    rw [h1 j]
    rfl
  · have : ((List.finRange c.n).map x).getD j.val (fun _ => 0) = x j := by
      rw [List.getD_eq_getElem?_getD, List.getElem?_map, List.getElem?_eq_getElem (by simp)]
      simp
    rw [this]
    exact h2 j

/-- C82. `mean_number_visits` returns a matrix for every chain. Its entries are built from the
probabilities `f i j` that `j` is visited after the start from `i`: zero where `f i j` is close to
zero, infinity where `f j j` is close to one, and `f i j / (1 - f j j)` elsewhere. -/
theorem C82_return_probabilities {c : MC K} (hc : c.Valid) {sccs : List (List (Fin c.n))}
    (h : IsClasses c.p sccs) :
    ∃ (m : Fin c.n → Fin c.n → Flt K) (f : Fin c.n → Fin c.n → K),
      meanNumberVisits c sccs = .ok m ∧
      (∀ j, IsReturnProbability (fun i k => c.p i k) j fun i => f i j) ∧
      ∀ i j, m i j = if isclose (f i j) 0 then .fin 0 else if isclose (f j j) 1 then .inf false
        else .fin (f i j * (1 / (1 - f j j))) := by
  obtain ⟨cols, h1, -, h3⟩ := visitColumns_spec hc h
  refine ⟨visitEntry cols, fun i j => cols.getD j.val (fun _ => 0) i, ?_,
    fun j => (h3 j).isReturnProbability hc.2.1, fun i j => rfl⟩
  unfold meanNumberVisits
  rw [h1]
  rfl

theorem IsReturnProbability.returnSystem {n : ℕ} {P : Fin n → Fin n → K} {j : Fin n}
    {f x : Fin n → K} (hf : IsReturnProbability P j f) (hP : IsStochastic P)
    (hx : ReturnSystem P j x) : ReturnSystem P j f := by
  rw [hf.unique (hx.isReturnProbability hP)]
  exact hx

/-- C82. The entries of `mean_number_visits` are the expected numbers of visits after the start:
an entry is finite exactly when the series of the probabilities of being in `j` after `1, 2, …`
steps converges, and then it is the sum of the series. Partial: the probabilities that are not zero
(that are not one) must be distinguishable from zero (from one) by `isclose`; see `C82_sticky` and
`C82_unlikely`. -/
theorem C82_mean_number_visits_partial {c : MC ℝ} (hc : c.Valid) {sccs : List (List (Fin c.n))}
    (h : IsClasses c.p sccs) {f : Fin c.n → Fin c.n → ℝ}
    (hf : ∀ j, IsReturnProbability (fun i k => c.p i k) j fun i => f i j)
    (h0 : ∀ i j, isclose (f i j) 0 = true → f i j = 0)
    (h1 : ∀ j, isclose (f j j) 1 = true → f j j = 1) :
    ∃ m, meanNumberVisits c sccs = .ok m ∧ ∀ i j,
      (∃ v, m i j = .fin v ∧ HasSum (fun k => (c.p ^ (k + 1)) i j) v) ∨
      (m i j = .inf false ∧ ¬ Summable fun k => (c.p ^ (k + 1)) i j) := by
  obtain ⟨cols, e1, -, e3⟩ := visitColumns_spec hc h
  have hsys : ∀ j, ReturnSystem (fun i k => c.p i k) j fun i => f i j := fun j =>
    (hf j).returnSystem hc.2.1 (e3 j)
  have hcol : ∀ i j : Fin c.n, cols.getD j.val (fun _ => 0) i = f i j := fun i j =>
    congrFun (((e3 j).isReturnProbability hc.2.1).unique (hf j)) i
  refine ⟨visitEntry cols, ?_, fun i j => ?_⟩
  · unfold meanNumberVisits
    rw [e1]
    rfl
  · have he : visitEntry cols i j = if isclose (f i j) 0 then .fin 0
        else if isclose (f j j) 1 then .inf false else .fin (f i j * (1 / (1 - f j j))) := by
      unfold visitEntry
      simp only [hcol]
    rw [he]
    by_cases c0 : isclose (f i j) 0 = true
    · left
      refine ⟨0, if_pos c0, ?_⟩
      have : (fun k => (c.p ^ (k + 1)) i j) = fun _ => 0 := funext fun k =>
        (hsys j).pow_eq_zero hc.2.1 k i (h0 i j c0)
      rw [this]
      exact hasSum_zero
    · rw [if_neg c0]
      have hpos : 0 < f i j := lt_of_le_of_ne ((hf j).2.1 i) fun e => c0 (by
        rw [← e]
        unfold isclose
        exact decide_eq_true (by norm_num))
      by_cases c1 : isclose (f j j) 1 = true
      · right
        exact ⟨if_pos c1, (hsys j).not_summable hc.2.1 (h1 j c1) hpos⟩
      · left
        refine ⟨_, if_neg c1, ?_⟩
        have hlt : f j j < 1 := by
          refine lt_of_le_of_ne ?_ fun e => c1 (by
            rw [e]
            unfold isclose
            exact decide_eq_true (by norm_num))
          have hone : IsReturnSolution (fun i k => c.p i k) j fun _ => 1 := fun i => by
            simp only [ite_self, mul_one]
            exact (hc.2.1.2 i).symm
          exact (hf j).2.2 _ hone (fun _ => zero_le_one) j
        rw [mul_one_div]
        exact (hsys j).hasSum hc.2.1 hlt i

/-! ## Concrete chains -/

theorem toReal_returnSystem {c : MC ℚ} {j : Fin c.n} {x : Fin c.n → ℚ}
    (h : ReturnSystem (fun i k => c.p i k) j x) :
    ReturnSystem (fun i k => c.toReal.p i k) j fun i => (x i : ℝ) := by
  have hcom : ∀ i k, Communicate (fun i k => c.toReal.p i k) i k ↔
      Communicate (fun i k => c.p i k) i k := fun i k =>
    and_congr (toReal_reach i k) (toReal_reach k i)
  have hrec : ∀ i, RecurrentState (fun i k => c.toReal.p i k) i ↔
      RecurrentState (fun i k => c.p i k) i := fun i =>
    forall_congr' fun k => imp_congr (toReal_reach i k) (toReal_reach k i)
  refine ⟨fun i hi hij => ?_, fun i hi hij => ?_, fun i hi => ?_⟩
  · exact (congrArg (Rat.cast : ℚ → ℝ) (h.1 i ((hrec i).1 hi) ((hcom i j).1 hij))).trans Rat.cast_one
  · exact (congrArg (Rat.cast : ℚ → ℝ) (h.2.1 i ((hrec i).1 hi) (mt (hcom i j).2 hij))).trans
      Rat.cast_zero
  · refine (congrArg (Rat.cast : ℚ → ℝ) (h.2.2 i (mt (hrec i).2 hi))).trans ?_
    refine (Rat.cast_sum _ _).trans ?_
    refine Finset.sum_congr rfl fun k _ => ?_
    change ((c.p i k * _ : ℚ) : ℝ) = ((c.p i k : ℚ) : ℝ) * _
    rw [Rat.cast_mul]
    congr 1
    by_cases hk : k = j
    · exact (congrArg (Rat.cast : ℚ → ℝ) (if_pos hk)).trans (Rat.cast_one.trans (if_pos hk).symm)
    · exact (congrArg (Rat.cast : ℚ → ℝ) (if_neg hk)).trans (if_neg hk).symm

/-- The matrix of `exDrunkard` is also its matrix of return probabilities. -/
theorem exDrunkard_return (j : Fin 3) :
    ReturnSystem (fun i k : Fin 3 => exDrunkard.p i k) j fun i : Fin 3 => exDrunkard.p i j := by
  unfold ReturnSystem
  revert j
  decide +kernel

/-- The chain of `exDrunkard` over the reals meets the hypotheses of
`C82_mean_number_visits_partial`. -/
example : exDrunkard.toReal.Valid ∧
    IsClasses (fun i k : Fin 3 => exDrunkard.toReal.p i k) [[0], [1], [2]] ∧
    (∀ j : Fin 3, IsReturnProbability (fun i k : Fin 3 => exDrunkard.toReal.p i k) j
      fun i : Fin 3 => exDrunkard.toReal.p i j) ∧
    (∀ i j : Fin 3, isclose (exDrunkard.toReal.p i j) 0 = true → exDrunkard.toReal.p i j = 0) ∧
    ∀ j : Fin 3, isclose (exDrunkard.toReal.p j j) 1 = true → exDrunkard.toReal.p j j = 1 := by
  have hv : exDrunkard.Valid := by decide +kernel
  have k0 : ∀ i j : Fin 3, isclose (exDrunkard.p i j) 0 = true →
      exDrunkard.p i j = (0 : ℚ) := by
    intro i j
    fin_cases i <;> fin_cases j <;> decide +kernel
  have k1 : ∀ j : Fin 3, isclose (exDrunkard.p j j) 1 = true → exDrunkard.p j j = (1 : ℚ) := by
    decide +kernel
  have hcl : IsClasses (fun i j : Fin 3 => exDrunkard.p i j) [[0], [1], [2]] := by decide +kernel
  refine ⟨toReal_valid hv, toReal_isClasses (c := exDrunkard) hcl,
    fun j => ?_, fun i j h => ?_, fun j h => ?_⟩
  · exact (toReal_returnSystem (c := exDrunkard) (exDrunkard_return j)).isReturnProbability
      (toReal_valid hv).2.1
  · change isclose ((exDrunkard.p i j : ℚ) : ℝ) 0 = true at h
    change ((exDrunkard.p i j : ℚ) : ℝ) = 0
    have h2 := isclose_cast (exDrunkard.p i j) 0
    rw [Rat.cast_zero, h] at h2
    rw [k0 i j h2.symm, Rat.cast_zero]
  · change isclose ((exDrunkard.p j j : ℚ) : ℝ) 1 = true at h
    change ((exDrunkard.p j j : ℚ) : ℝ) = 1
    have h2 := isclose_cast (exDrunkard.p j j) 1
    rw [Rat.cast_one, h] at h2
    rw [k1 j h2.symm, Rat.cast_one]

/-- C82 fails for chains with a transient state that is left very rarely: the number of visits to
state `a` of `exSticky` has mean at most `999999`, the method reports infinity. -/
theorem C82_sticky : ∃ m, meanNumberVisits exSticky ([[0], [1]] : List (List (Fin 2))) = .ok m ∧
    m (0 : Fin 2) (0 : Fin 2) = .inf false ∧
    ∀ k, ∑ t ∈ range k, (exSticky.p ^ (t + 1)) (0 : Fin 2) (0 : Fin 2) ≤ 999999 := by
  have hv : exSticky.Valid := by decide +kernel
  have hcl : IsClasses (fun i j : Fin 2 => exSticky.p i j) [[0], [1]] := by decide +kernel
  obtain ⟨cols, e1, -, e3⟩ := visitColumns_spec hv hcl
  have hs := e3 (0 : Fin 2)
  obtain ⟨x, hx⟩ : ∃ x : Fin 2 → ℚ, x = cols.getD (0 : Fin 2).val (fun _ => 0) := ⟨_, rfl⟩
  change ReturnSystem (fun i k : Fin 2 => exSticky.p i k) 0
    (cols.getD (0 : Fin 2).val (fun _ => 0)) at hs
  rw [← hx] at hs
  have hx1 : x 1 = 0 := hs.2.1 1 (by decide +kernel) (by decide +kernel)
  have hx0 : x 0 = 999999 / 1000000 := by
    have := hs.2.2 0 (by decide +kernel)
    rw [Fin.sum_univ_two, if_pos rfl, if_neg (by decide), hx1, mul_zero, add_zero, mul_one] at this
    exact this
  refine ⟨visitEntry cols, ?_, ?_, fun k => ?_⟩
  · unfold meanNumberVisits
    rw [e1]
    rfl
  · have he : visitEntry cols (0 : Fin 2) (0 : Fin 2) = if isclose (x 0) 0 then .fin 0
        else if isclose (x 0) 1 then .inf false else .fin (x 0 * (1 / (1 - x 0))) := by
      rw [hx]; rfl
    rw [he, hx0, if_neg (by decide +kernel), if_pos (by decide +kernel)]
  · have := hs.visits_le (P := exSticky.p) hv.2.1 k (0 : Fin 2)
    rw [hx0] at this
    have key : ∀ S : ℚ, S ≤ 999999 / 1000000 * (1 + S) → S ≤ 999999 := fun S h => by linarith
    exact key _ this

/-- An absorbing state that is reached with a probability of one to a billion. -/
def exUnlikelyP : Matrix (Fin 3) (Fin 3) ℚ :=
  !![0, 1 / 10 ^ 9, 1 - 1 / 10 ^ 9; 0, 1, 0; 0, 0, 1]

/-- The chain of `exUnlikelyP`. -/
def exUnlikely : MC ℚ := ⟨3, exUnlikelyP, ["a", "b", "c"]⟩

theorem exUnlikely_pow (k : ℕ) : (exUnlikelyP ^ (k + 1)) 0 1 = 1 / 10 ^ 9 := by
  have h1 : ∀ k, (exUnlikelyP ^ k) 1 1 = 1 ∧ (exUnlikelyP ^ k) 2 1 = 0 := by
    intro k
    induction k with
    | zero => exact ⟨rfl, rfl⟩
    | succ k ih =>
      constructor
      · rw [pow_succ', Matrix.mul_apply, Fin.sum_univ_three, ih.1, ih.2]
        simp [exUnlikelyP]
      · rw [pow_succ', Matrix.mul_apply, Fin.sum_univ_three, ih.1, ih.2]
        simp [exUnlikelyP]
  rw [pow_succ', Matrix.mul_apply, Fin.sum_univ_three, (h1 k).1, (h1 k).2]
  simp [exUnlikelyP]

/-- C82 fails for states that are reached with a very small probability: the number of visits to
state `b` of `exUnlikely` during the first `k` steps has mean `k / 10 ^ 9`, which is unbounded, the
method reports zero. -/
theorem C82_unlikely : ∃ m,
    meanNumberVisits exUnlikely ([[0], [1], [2]] : List (List (Fin 3))) = .ok m ∧
    m (0 : Fin 3) (1 : Fin 3) = .fin 0 ∧
    ∀ k, (exUnlikely.p ^ (k + 1)) (0 : Fin 3) (1 : Fin 3) = 1 / 10 ^ 9 := by
  have hv : exUnlikely.Valid := by decide +kernel
  have hcl : IsClasses (fun i j : Fin 3 => exUnlikely.p i j) [[0], [1], [2]] := by decide +kernel
  obtain ⟨cols, e1, -, e3⟩ := visitColumns_spec hv hcl
  have hs := e3 (1 : Fin 3)
  obtain ⟨x, hx⟩ : ∃ x : Fin 3 → ℚ, x = cols.getD (1 : Fin 3).val (fun _ => 0) := ⟨_, rfl⟩
  change ReturnSystem (fun i k : Fin 3 => exUnlikely.p i k) 1
    (cols.getD (1 : Fin 3).val (fun _ => 0)) at hs
  rw [← hx] at hs
  have hx2 : x 2 = 0 := hs.2.1 2 (by decide +kernel) (by decide +kernel)
  have hx0 : x 0 = 1 / 10 ^ 9 := by
    have := hs.2.2 0 (by decide +kernel)
    rw [Fin.sum_univ_three, if_neg (by decide), if_pos rfl, if_neg (by decide), hx2] at this
    rw [this]
    simp [exUnlikely, exUnlikelyP]
  refine ⟨visitEntry cols, ?_, ?_, exUnlikely_pow⟩
  · unfold meanNumberVisits
    rw [e1]
    rfl
  · have he : visitEntry cols (0 : Fin 3) (1 : Fin 3) = if isclose (x 0) 0 then .fin 0
        else if isclose (x 1) 1 then .inf false else .fin (x 0 * (1 / (1 - x 1))) := by
      rw [hx]; rfl
    rw [he, hx0, if_pos]
    decide +kernel

end Verif
