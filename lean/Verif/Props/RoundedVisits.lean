import Verif.Model.RoundedVisits
import Verif.Props.RoundedSolve
import Verif.Props.Visits

/-!
# Mean numbers of visits with an inexact solver

C175: the computed return probabilities, the infinite entries and the mean numbers of visits.
-/

namespace Verif

variable {K : Type} [Field K] [LinearOrder K] [IsStrictOrderedRing K]

open Finset

/-- A row of the computed matrix that belongs to a transient state, and the right side. -/
theorem visit_row_error {fl : K → K} {u δ e : K} (hr : Rounds fl u δ e) {n : ℕ} {M P : Matrix (Fin n) (Fin n) K}
    (hP : IsStochastic fun i j => P i j) (hM : RoundedFrom δ M P) {closed : Fin n → Bool} {i : Fin n}
    (hi : ¬ closed i = true) (j : Fin n) :
    ∑ k, |visitMatrixF fl M closed j i k - ((if k = j then 0 else P i k) - if k = i then 1 else 0)| + |M i j - P i j| ≤
      2 * u + δ := by
  have hu := hr.unit
  have hδ := hr.data
  have hp1 : P i i ≤ 1 := by
    have h1 := hP.2 i
    dsimp only at h1
    rw [← h1]
    exact single_le_sum (f := fun j => P i j) (fun j _ => hP.1 i j) (mem_univ i)
  have hentry : ∀ k, |visitMatrixF fl M closed j i k - ((if k = j then 0 else P i k) - if k = i then 1 else 0)| ≤
      (if k = i then 2 * u else 0) + (δ * P i k - if k = j then δ * P i j else 0) := fun k => by
    unfold visitMatrixF
    rw [if_neg hi]
    have hp := hP.1 i k
    dsimp only at hp
    by_cases hk : k = i
    · rw [if_pos hk, if_pos hk, if_pos hk]
      by_cases hj : k = j
      · rw [if_pos hj, if_pos hj, if_pos hj, ← hj]
        have h1 := hr.near (0 - 1)
        rw [show |(0 - 1 : K)| = 1 by rw [zero_sub, abs_neg, abs_one]] at h1
        linarith
      · rw [if_neg hj, if_neg hj, if_neg hj, hk]
        have h1 := hr.near (M i i - 1)
        have h2 := hM i i
        have h3 : |M i i - 1| ≤ 2 := by
          have h4 := abs_sub_le (M i i) (P i i) 1
          have h5 : |P i i - 1| = 1 - P i i := by rw [abs_sub_comm, abs_of_nonneg (by linarith)]
          have h6 := mul_le_mul_of_nonneg_right hr.lt.le (hP.1 i i)
          dsimp only at h6
          linarith
        have h4 := mul_le_mul_of_nonneg_left h3 hu
        have h5 := abs_sub_le (fl (M i i - 1)) (M i i - 1) (P i i - 1)
        rw [sub_sub_sub_cancel_right] at h5
        linarith
    · rw [if_neg hk, if_neg hk, if_neg hk, sub_zero, zero_add]
      by_cases hj : k = j
      · rw [if_pos hj, if_pos hj, if_pos hj, ← hj, sub_zero, abs_zero, sub_self]
      · rw [if_neg hj, if_neg hj, if_neg hj, sub_zero]
        exact hM i k
  have h1 : ∑ k, |visitMatrixF fl M closed j i k - ((if k = j then 0 else P i k) - if k = i then 1 else 0)| ≤
      2 * u + (δ - δ * P i j) := by
    refine (sum_le_sum fun k _ => hentry k).trans (le_of_eq ?_)
    rw [sum_add_distrib, sum_sub_distrib, ← mul_sum]
    have h2 := hP.2 i
    dsimp only at h2
    rw [h2]
    simp
  linarith [hM i j]

/-- A column of the computed probabilities. -/
theorem visit_column_error {fl : K → K} {u δ e : K} (hr : Rounds fl u δ e) {n : ℕ} {M P : Matrix (Fin n) (Fin n) K}
    (hP : IsStochastic fun i j => P i j) (hM : RoundedFrom δ M P) {solve : Solver K} (hs : solve.Stable e)
    {closed : Fin n → Bool} (hcl : ∀ i, closed i = true ↔ RecurrentState (fun i j => P i j) i)
    {cm : Matrix (Fin n) (Fin n) ℕ} {j : Fin n} (hcm : ∀ i, cm i j = 1 ↔ Communicate (fun i j => P i j) i j)
    {x x' : Fin n → K} (hx : ReturnSystem (fun i j => P i j) j x)
    (hsol : solve n (visitMatrixF fl M closed j) (visitRhs M cm closed j) = some x') {m : Fin n → K}
    (hm : IsPassageTime (fun i j => P i j) (RecurrentState fun i j => P i j) m) {T : K} (hT : ∀ i, m i ≤ T)
    (hη : (3 * e + (2 * u + δ)) * (T + 1) ≤ 1 / 2) (i : Fin n) : |x' i - x i| ≤ 2 * (3 * e + (2 * u + δ)) * (m i + 1) := by
  have hu := hr.unit
  have hδ := hr.data
  have he := hr.solver
  have hn : Nonempty (Fin n) := ⟨j⟩
  obtain ⟨j0, hj0⟩ := Finite.exists_max fun j => |x' j|
  obtain ⟨X, hX⟩ : ∃ X, X = |x' j0| := ⟨_, rfl⟩
  have hxX : ∀ j, |x' j| ≤ X := fun j => by rw [hX]; exact hj0 j
  have hX0 : 0 ≤ X := by rw [hX]; exact abs_nonneg _
  obtain ⟨Y, hY⟩ : ∃ Y, Y = max X 1 := ⟨_, rfl⟩
  have hXY : X ≤ Y := by rw [hY]; exact le_max_left _ _
  have hY1 : 1 ≤ Y := by rw [hY]; exact le_max_right _ _
  have hreach : ∀ i, ∃ b, RecurrentState (fun i j => P i j) b ∧ Reach (fun i j => P i j) i b :=
    fun i => by
      obtain ⟨b, h1, h2⟩ := exists_recurrent_reach (fun i j => P i j) i
      exact ⟨b, h2, h1⟩
  have hrow := fun i hi => visit_row_error hr hP hM (closed := closed) (i := i) hi j
  have hN : ∀ i, ∑ k, |visitMatrixF fl M closed j i k| ≤ 3 := fun i => by
    by_cases hi : closed i = true
    · have h1 : ∀ k, |visitMatrixF fl M closed j i k| = if k = i then 1 else 0 := fun k => by
        unfold visitMatrixF
        rw [if_pos hi]
        split <;> simp
      rw [sum_congr rfl fun k _ => h1 k, sum_ite_eq']
      simp
    · have h1 : ∀ k, |visitMatrixF fl M closed j i k| ≤
          |visitMatrixF fl M closed j i k - ((if k = j then 0 else P i k) - if k = i then 1 else 0)| +
          (P i k + if k = i then 1 else 0) := fun k => by
        have h2 := abs_sub_le (visitMatrixF fl M closed j i k) ((if k = j then 0 else P i k) - if k = i then 1 else 0) 0
        rw [sub_zero, sub_zero] at h2
        refine h2.trans (add_le_add_right ?_ _)
        have hp := hP.1 i k
        dsimp only at hp
        rw [abs_le]
        split_ifs <;> constructor <;> linarith
      have h2 := sum_le_sum (s := univ) fun k _ => h1 k
      rw [sum_add_distrib, sum_add_distrib] at h2
      have h3 := hP.2 i
      dsimp only at h3
      rw [h3, sum_ite_eq', if_pos (mem_univ i)] at h2
      have h4 := hrow i hi
      have h5 := abs_nonneg (M i j - P i j)
      have h6 := hr.small
      linarith
  have hres := hs n _ _ _ hsol 3 X hN hxX
  obtain ⟨η, hηd⟩ : ∃ η, η = 3 * e + (2 * u + δ) := ⟨_, rfl⟩
  rw [← hηd] at hη ⊢
  have hη0 : 0 ≤ η := by rw [hηd]; linarith
  have heX := mul_le_mul_of_nonneg_left hXY (mul_nonneg three_pos.le he)
  have hκY : 0 ≤ (2 * u + δ) * Y := mul_nonneg (by linarith) (by linarith)
  have hclosed : ∀ i, RecurrentState (fun i j => P i j) i → |x' i - x i| ≤ η * Y := fun i hi => by
    have hc := (hcl i).2 hi
    have h1 := hres i
    have h2 : ∑ k, visitMatrixF fl M closed j i k * x' k = x' i := by
      unfold visitMatrixF
      simp [hc]
    have h3 : visitRhs M cm closed j i = x i := by
      unfold visitRhs
      rw [if_pos hc]
      by_cases hcom : Communicate (fun i j => P i j) i j
      · rw [if_pos ((hcm i).2 hcom), hx.1 i hi hcom]
      · rw [if_neg fun h => hcom ((hcm i).1 h), hx.2.1 i hi hcom]
    rw [h2, h3] at h1
    rw [hηd, add_mul]
    linarith
  have hopen : ∀ i, ¬ RecurrentState (fun i j => P i j) i → |x' i - x i| ≤ η * Y + ∑ k, P i k * |x' k - x k| := fun i hi => by
    have hc : ¬ closed i = true := fun h => hi ((hcl i).1 h)
    have h1 := hres i
    have hb : visitRhs M cm closed j i = -M i j := by
      unfold visitRhs
      rw [if_neg hc]
    rw [hb, sub_neg_eq_add] at h1
    have h2 := hrow i hc
    have h3 : |∑ k, (visitMatrixF fl M closed j i k - ((if k = j then 0 else P i k) - if k = i then 1 else 0)) * x' k +
        (M i j - P i j)| ≤ (2 * u + δ) * Y := by
      refine (abs_add_le _ _).trans (le_trans ?_ (mul_le_mul_of_nonneg_right h2 (by linarith)))
      rw [add_mul, sum_mul]
      refine add_le_add ((abs_sum_le_sum_abs _ _).trans (sum_le_sum fun k _ => ?_))
        (le_mul_of_one_le_right (abs_nonneg _) hY1)
      rw [abs_mul]
      exact mul_le_mul_of_nonneg_left ((hxX k).trans hXY) (abs_nonneg _)
    have h4 : ∑ k, (visitMatrixF fl M closed j i k - ((if k = j then 0 else P i k) - if k = i then 1 else 0)) * x' k =
        ∑ k, visitMatrixF fl M closed j i k * x' k - (∑ k, (if k = j then 0 else P i k) * x' k - x' i) := by
      simp only [sub_mul, sum_sub_distrib, ite_mul, one_mul, zero_mul, sum_ite_eq', mem_univ, if_true]
    have h5 : x i = P i j + ∑ k, (if k = j then 0 else P i k) * x k := by
      rw [hx.2.2 i hi]
      have h6 : P i j = ∑ k, if k = j then P i k else 0 := by simp
      rw [h6, ← sum_add_distrib]
      refine sum_congr rfl fun k _ => ?_
      by_cases hk : k = j <;> simp [hk]
    have h6 : |x' i - P i j - ∑ k, (if k = j then 0 else P i k) * x' k| ≤ η * Y := by
      rw [h4] at h3
      have h7 := abs_sub (∑ k, visitMatrixF fl M closed j i k * x' k + M i j)
        (∑ k, visitMatrixF fl M closed j i k * x' k - (∑ k, (if k = j then 0 else P i k) * x' k - x' i) + (M i j - P i j))
      rw [← abs_neg, show ∀ a b c d p : K, -(a + b - (a - (c - d) + (b - p))) = d - p - c by intros; ring] at h7
      rw [hηd, add_mul]
      linarith
    have h7 : x' i - x i = (x' i - P i j - ∑ k, (if k = j then 0 else P i k) * x' k) +
        ∑ k, (if k = j then 0 else P i k) * (x' k - x k) := by
      simp only [mul_sub, sum_sub_distrib]
      linarith
    rw [h7]
    refine (abs_add_le _ _).trans (add_le_add h6 ((abs_sum_le_sum_abs _ _).trans (sum_le_sum fun k _ => ?_)))
    have hp := hP.1 i k
    dsimp only at hp
    rw [abs_mul]
    refine mul_le_mul_of_nonneg_right ?_ (abs_nonneg _)
    split
    · rwa [abs_zero]
    · rw [abs_of_nonneg hp]
  have herr : ∀ i, |x' i - x i| ≤ η * Y * (m i + 1) := fun i => by
    refine sub_nonneg.1 (min_principle hP hreach (v := fun i => η * Y * (m i + 1) - |x' i - x i|) (fun i hi => ?_)
      (fun i hi => ?_) i)
    · have h1 := hclosed i hi
      rw [hm.1 i hi]
      linarith
    · have h1 := hopen i hi
      have h2 : ∑ k, P i k * (η * Y * (m k + 1) - |x' k - x k|) =
          η * Y * (∑ k, P i k * m k) + η * Y * ∑ k, P i k - ∑ k, P i k * |x' k - x k| := by
        simp only [mul_sum, ← sum_add_distrib, ← sum_sub_distrib]
        exact sum_congr rfl fun k _ => by ring
      have h3 := hP.2 i
      dsimp only at h3
      have h4 := hm.2 i hi
      dsimp only at h2 h4 ⊢
      rw [h2, h3, h4]
      linarith
  have hx1 : ∀ i, |x i| ≤ 1 := fun i => by
    have h1 := hx.isReturnProbability hP
    rw [abs_of_nonneg (h1.2.1 i)]
    have hone : IsReturnSolution (fun i k => P i k) j fun _ => 1 := fun i => by
      simp only [ite_self, mul_one]
      exact (hP.2 i).symm
    exact h1.2.2 _ hone (fun _ => zero_le_one) i
  have hm0 := fun i => passageTime_ge_zero hP hreach hm i
  have hY2 : Y ≤ 2 := by
    have h1 : η * Y * (T + 1) ≤ 1 / 2 * Y := by
      have := mul_le_mul_of_nonneg_right hη (by linarith : 0 ≤ Y)
      linarith
    have h2 : X ≤ 1 + 1 / 2 * Y := by
      have h3 := herr j0
      have h4 := abs_add_le (x j0) (x' j0 - x j0)
      rw [add_sub_cancel, ← hX] at h4
      have h5 := mul_le_mul_of_nonneg_left (add_le_add_left (hT j0) 1) (mul_nonneg hη0 (by linarith : 0 ≤ Y))
      linarith [hx1 j0]
    rcases le_total X 1 with h3 | h3
    · rw [max_eq_right h3] at hY
      linarith
    · rw [max_eq_left h3] at hY
      linarith
  refine (herr i).trans (mul_le_mul_of_nonneg_right ?_ (by linarith [hm0 i]))
  have := mul_le_mul_of_nonneg_left hY2 hη0
  linarith

/-- The hypotheses about the graph hold for the computed matrix. -/
theorem visit_graph {c : MC K} {P : Matrix (Fin c.n) (Fin c.n) K} (hP : IsStochastic fun i j => P i j) {δ : K} (hδ : δ < 1)
    (hc : RoundedFrom δ c.p P) {sccs : List (List (Fin c.n))} (h : IsClasses c.p sccs) :
    (∀ i, closedState c.p sccs i = true ↔ RecurrentState (fun i j => P i j) i) ∧
    ∀ i j, communicationMatrix c sccs i j = 1 ↔ Communicate (fun i j => P i j) i j := by
  have hreach := hc.reach hδ hP.1
  constructor
  · intro i
    rw [closedState_iff h i]
    exact forall_congr' fun k => imp_congr (hreach i k) (hreach k i)
  · intro i j
    have hk := h.communicatingIdx
    have h1 : Communicate (fun i j => P i j) i j ↔ Communicate c.p i j :=
      and_congr (hreach i j).symm (hreach j i).symm
    rw [h1]
    unfold communicationMatrix
    split
    · next hex =>
      obtain ⟨C, hC, hi, hj⟩ := hex
      exact iff_of_true rfl ((hk.mem_iff C hC i hi j).1 hj)
    · next hex =>
      refine iff_of_false Nat.zero_ne_one fun hcom => hex ?_
      obtain ⟨C, hC, hi⟩ := hk.cover i
      exact ⟨C, hC, hi, (hk.mem_iff C hC i hi j).2 hcom⟩

/-- What the entries are computed from. -/
theorem visits_columns {c : MC K} {P : Matrix (Fin c.n) (Fin c.n) K} (hv : (⟨c.n, P, c.states⟩ : MC K).Valid)
    {fl : K → K} {u δ e : K} (hr : Rounds fl u δ e) (hc : RoundedFrom δ c.p P) {solve : Solver K} (hs : solve.Stable e)
    {sccs : List (List (Fin c.n))} (h : IsClasses c.p sccs) {t : Fin c.n → Fin c.n → Flt K}
    (ht : meanNumberVisitsF fl solve c sccs = .ok t) {f : Fin c.n → Fin c.n → K}
    (hf : ∀ j, IsReturnProbability (fun i k => P i k) j fun i => f i j) {m : Fin c.n → K}
    (hm : IsPassageTime (fun i j => P i j) (RecurrentState fun i j => P i j) m) {T : K} (hT : ∀ i, m i ≤ T)
    (hη : (3 * e + (2 * u + δ)) * (T + 1) ≤ 1 / 2) :
    ∃ g : Fin c.n → Fin c.n → K, (∀ i j, |g i j - f i j| ≤ 2 * (3 * e + (2 * u + δ)) * (m i + 1)) ∧
      ∀ i j, t i j = if isclose (g i j) 0 then .fin 0 else if isclose (g j j) 1 then .inf false
        else .fin (fl (g i j * fl (1 / fl (1 - g j j)))) := by
  have hP : IsStochastic fun i j => P i j := hv.2.1
  unfold meanNumberVisitsF at ht
  rw [R.bind_ok] at ht
  obtain ⟨cols, hcols, ht⟩ := ht
  rw [R.pure_ok] at ht
  unfold visitColumnsF at hcols
  have hF := mapM_R_eq_ok.1 hcols
  have hlen := hF.length_eq
  rw [List.length_finRange] at hlen
  have hcol : ∀ j : Fin c.n, solve c.n (visitMatrixF fl c.p (closedState c.p sccs) j)
      (visitRhs c.p (communicationMatrix c sccs) (closedState c.p sccs) j) = some (cols.getD j.val fun _ => 0) := fun j => by
    have h1 := hF.get (i := j.val) (by rw [List.length_finRange]; exact j.2) (by rw [← hlen]; exact j.2)
    have h2 := orRaise_ok h1
    rw [List.getD_eq_getElem _ _ (by rw [← hlen]; exact j.2)]
    simpa using h2
  obtain ⟨h1, h2⟩ := visit_graph hP hr.lt hc h
  have hreach := hc.reach hr.lt hP.1
  have hcl : IsClasses (fun i j => P i j) sccs := by
    refine ⟨h.cover, h.nodup, h.ne_nil, h.disjoint, fun C hC i hi j => ?_⟩
    rw [h.mem_iff C hC i hi j]
    exact and_congr (hreach i j) (hreach j i)
  obtain ⟨cols', -, -, h3⟩ := visitColumns_spec hv hcl
  have hsys : ∀ j, ReturnSystem (fun i k => P i k) j fun i => f i j := fun j => (hf j).returnSystem hP (h3 j)
  refine ⟨fun i j => cols.getD j.val (fun _ => 0) i, fun i j => ?_, fun i j => ?_⟩
  · exact visit_column_error hr hP hc hs h1 (fun i => h2 i j) (hsys j) (hcol j) hm hT hη i
  · rw [← ht]
    rfl

/-- The quotient with rounding. -/
theorem visit_value_error {fl : K → K} {u ε g h f d : K} (hu : 0 ≤ u) (hfl : ∀ z, |fl z - z| ≤ u * |z|) (hε : 0 ≤ ε)
    (hd : 0 < d) (hf0 : 0 ≤ f) (hg : |g - f| ≤ ε) (hh : |1 - h - d| ≤ ε) (hsmall : ε / d + 2 * u ≤ 1 / 4) :
    |fl (g * fl (1 / fl (1 - h))) - f / d| ≤ 6 * (ε / d) + (4 * (ε / d) + 13 * u) * (f / d) := by
  obtain ⟨β, hβ⟩ : ∃ β, β = ε / d + 2 * u := ⟨_, rfl⟩
  have hq0 : 0 ≤ ε / d := by positivity
  have hqd : ε / d * d = ε := by field_simp
  rw [← hβ] at hsmall
  obtain ⟨D, hD⟩ : ∃ D, D = fl (1 - h) := ⟨_, rfl⟩
  have h1 : |D - d| ≤ β * d := by
    have h2 := hfl (1 - h)
    rw [← hD] at h2
    have h3 : |1 - h| ≤ 2 * d := by
      have h4 := abs_add_le d (1 - h - d)
      rw [add_sub_cancel, abs_of_pos hd] at h4
      have h5 : ε ≤ 1 * d := by
        rw [← hqd]
        exact mul_le_mul_of_nonneg_right (by linarith) hd.le
      linarith
    have h4 := mul_le_mul_of_nonneg_left h3 hu
    have h5 := abs_sub_le D (1 - h) d
    rw [hβ, add_mul, hqd]
    linarith
  rw [← hD]
  have hβ0 : 0 ≤ β := by rw [hβ]; linarith
  have hD0 : d / 2 ≤ D := by
    have h2 := (abs_le.1 h1).1
    have h3 := mul_le_mul_of_nonneg_right hsmall hd.le
    linarith
  have hDp : 0 < D := by linarith
  have h2 : |1 / D - 1 / d| ≤ 2 * β * (1 / d) := by
    rw [show 1 / D - 1 / d = (d - D) / (D * d) by field_simp, abs_div, abs_of_pos (mul_pos hDp hd), div_le_iff₀ (mul_pos hDp hd),
      abs_sub_comm, show 2 * β * (1 / d) * (D * d) = 2 * β * D by field_simp]
    have := mul_le_mul_of_nonneg_left hD0 hβ0
    linarith
  obtain ⟨z, hz⟩ : ∃ z, z = 1 / d := ⟨_, rfl⟩
  have hz0 : 0 < z := by rw [hz]; positivity
  obtain ⟨z', hz'⟩ : ∃ z', z' = fl (1 / D) := ⟨_, rfl⟩
  have e1 : f / d = f * z := by rw [hz, mul_one_div]
  have e2 : ε / d = ε * z := by rw [hz, mul_one_div]
  rw [← hz] at h2
  have hu8 : u ≤ 1 / 8 := by linarith
  have h3 : |z' - z| ≤ (2 * β + 2 * u) * z := by
    have h4 := hfl (1 / D)
    rw [← hz'] at h4
    have h5 : |1 / D| ≤ 2 * z := by
      have h6 := abs_add_le z (1 / D - z)
      rw [add_sub_cancel, abs_of_pos hz0] at h6
      have h7 := mul_le_mul_of_nonneg_right (by linarith : 2 * β ≤ 1) hz0.le
      linarith
    have h6 := mul_le_mul_of_nonneg_left h5 hu
    have h7 := abs_sub_le z' (1 / D) z
    linarith
  have h4 : |z'| ≤ 2 * z := by
    have h6 := abs_add_le z (z' - z)
    rw [add_sub_cancel, abs_of_pos hz0] at h6
    have h7 := mul_le_mul_of_nonneg_right (by linarith : 2 * β + 2 * u ≤ 1) hz0.le
    linarith
  rw [← hz', e1, e2]
  have h5 : |g * z' - f * z| ≤ 2 * (ε * z) + (2 * β + 2 * u) * (f * z) := by
    have h6 := abs_add_le ((g - f) * z') (f * (z' - z))
    rw [show (g - f) * z' + f * (z' - z) = g * z' - f * z by ring, abs_mul, abs_mul, abs_of_nonneg hf0] at h6
    have h7 := mul_le_mul hg h4 (abs_nonneg _) hε
    have h8 := mul_le_mul_of_nonneg_left h3 hf0
    linarith
  have h6 := hfl (g * z')
  have hfz : 0 ≤ f * z := mul_nonneg hf0 hz0.le
  have hεz : 0 ≤ ε * z := mul_nonneg hε hz0.le
  have h7 : |g * z'| ≤ 2 * (ε * z) + 2 * (f * z) := by
    have h8 := abs_add_le (f * z) (g * z' - f * z)
    rw [add_sub_cancel, abs_of_nonneg hfz] at h8
    have h9 := mul_le_mul_of_nonneg_right (by linarith : 2 * β + 2 * u ≤ 1) hfz
    linarith
  have h8 := mul_le_mul_of_nonneg_left h7 hu
  have h9 := mul_le_mul_of_nonneg_right hu8 hεz
  have h10 := abs_sub_le (fl (g * z')) (g * z') (f * z)
  have h11 : β * (f * z) = ε * z * (f * z) + 2 * u * (f * z) := by
    rw [hβ, e2]
    ring
  have h12 := mul_nonneg hεz hfz
  have h13 := mul_nonneg hu hfz
  have h14 : (4 * (ε * z) + 13 * u) * (f * z) = 4 * (ε * z * (f * z)) + 13 * (u * (f * z)) := by ring
  rw [h14]
  have h15 : (2 * β + 2 * u) * (f * z) = 2 * (ε * z * (f * z)) + 6 * (u * (f * z)) := by
    rw [hβ, e2]
    ring
  rw [h15] at h5
  linarith

/-- C175. **Mean numbers of visits with rounding**, transient states `j`: `f i j` is the probability that `j` is visited
after the start from `i`, and `m` are the mean times until a recurrent state is visited. -/
theorem C175_visits {c : MC K} {P : Matrix (Fin c.n) (Fin c.n) K} (hv : (⟨c.n, P, c.states⟩ : MC K).Valid)
    {fl : K → K} {u δ e : K} (hr : Rounds fl u δ e) (hc : RoundedFrom δ c.p P) {solve : Solver K} (hs : solve.Stable e)
    {sccs : List (List (Fin c.n))} (h : IsClasses c.p sccs) {t : Fin c.n → Fin c.n → Flt K}
    (ht : meanNumberVisitsF fl solve c sccs = .ok t) {f : Fin c.n → Fin c.n → K}
    (hf : ∀ j, IsReturnProbability (fun i k => P i k) j fun i => f i j) {m : Fin c.n → K}
    (hm : IsPassageTime (fun i j => P i j) (RecurrentState fun i j => P i j) m) {T : K} (hT : ∀ i, m i ≤ T)
    (hη : (3 * e + (2 * u + δ)) * (T + 1) ≤ 1 / 2) {ε : K} (hε : ε = 2 * (3 * e + (2 * u + δ)) * (T + 1)) {j : Fin c.n}
    (hj : ε + 1 / 10 ^ 8 + 1 / 10 ^ 5 < 1 - f j j) (hsmall : ε / (1 - f j j) + 2 * u ≤ 1 / 4) (i : Fin c.n) :
    ∃ y, t i j = .fin y ∧ |y - f i j / (1 - f j j)| ≤ (6 * ε + 1 / 10 ^ 8) / (1 - f j j) +
      (4 * (ε / (1 - f j j)) + 13 * u) * (f i j / (1 - f j j)) := by
  obtain ⟨g, h1, h2⟩ := visits_columns hv hr hc hs h ht hf hm hT hη
  have hη0 : 0 ≤ 3 * e + (2 * u + δ) := by linarith [hr.unit, hr.data, hr.solver]
  have hg : ∀ i j, |g i j - f i j| ≤ ε := fun i j => (h1 i j).trans (by
    rw [hε]
    exact mul_le_mul_of_nonneg_left (by linarith [hT i]) (by linarith))
  have hε0 : 0 ≤ ε := (abs_nonneg _).trans (hg i j)
  have hd : 0 < 1 - f j j := lt_of_le_of_lt (by positivity) hj
  have hf0 : 0 ≤ f i j := (hf j).2.1 i
  have hq : 0 ≤ ε / (1 - f j j) := by positivity
  have hu := hr.unit
  rw [h2 i j]
  split
  · next hcl =>
    unfold isclose at hcl
    rw [decide_eq_true_eq, sub_zero, abs_zero, mul_zero, add_zero] at hcl
    refine ⟨0, rfl, ?_⟩
    have h3 : f i j ≤ ε + 1 / 10 ^ 8 := by
      have h4 := (abs_le.1 (hg i j)).1
      have h5 := (abs_le.1 hcl).2
      norm_num at h5 ⊢
      linarith
    rw [zero_sub, abs_neg, abs_of_nonneg (by positivity)]
    have h4 : f i j / (1 - f j j) ≤ (6 * ε + 1 / 10 ^ 8) / (1 - f j j) := div_le_div_of_nonneg_right (by linarith) hd.le
    have h5 : 0 ≤ (4 * (ε / (1 - f j j)) + 13 * u) * (f i j / (1 - f j j)) := by positivity
    linarith
  · rw [if_neg]
    · refine ⟨_, rfl, ?_⟩
      have h3 := visit_value_error (g := g i j) (h := g j j) hu hr.near hε0 hd hf0 (hg i j) (by
        rw [show 1 - g j j - (1 - f j j) = -(g j j - f j j) by ring, abs_neg]
        exact hg j j) hsmall
      refine h3.trans (add_le_add_left ?_ _)
      rw [add_div, mul_div_assoc]
      have : 0 ≤ 1 / 10 ^ 8 / (1 - f j j) := by positivity
      linarith
    · intro hcl
      unfold isclose at hcl
      rw [decide_eq_true_eq, abs_one] at hcl
      have h4 := (abs_le.1 (hg j j)).2
      have h5 := (abs_le.1 hcl).1
      norm_num at h5 hj
      linarith

/-- C175. **Mean numbers of visits with rounding**, recurrent states `j`: the entry is infinite where `j` is visited with
a probability that is not tiny, and zero where `j` cannot be reached. -/
theorem C175_infinite {c : MC K} {P : Matrix (Fin c.n) (Fin c.n) K} (hv : (⟨c.n, P, c.states⟩ : MC K).Valid)
    {fl : K → K} {u δ e : K} (hr : Rounds fl u δ e) (hc : RoundedFrom δ c.p P) {solve : Solver K} (hs : solve.Stable e)
    {sccs : List (List (Fin c.n))} (h : IsClasses c.p sccs) {t : Fin c.n → Fin c.n → Flt K}
    (ht : meanNumberVisitsF fl solve c sccs = .ok t) {f : Fin c.n → Fin c.n → K}
    (hf : ∀ j, IsReturnProbability (fun i k => P i k) j fun i => f i j) {m : Fin c.n → K}
    (hm : IsPassageTime (fun i j => P i j) (RecurrentState fun i j => P i j) m) {T : K} (hT : ∀ i, m i ≤ T)
    (hη : (3 * e + (2 * u + δ)) * (T + 1) ≤ 1 / 2) {ε : K} (hε : ε = 2 * (3 * e + (2 * u + δ)) * (T + 1)) {j : Fin c.n}
    (hj : RecurrentState (fun i j => P i j) j) (hsmall : ε ≤ 1 / 10 ^ 8) (i : Fin c.n) :
    (1 / 10 ^ 8 + ε < f i j → t i j = .inf false) ∧ (f i j = 0 → t i j = .fin 0) := by
  have hP : IsStochastic fun i j => P i j := hv.2.1
  obtain ⟨g, h1, h2⟩ := visits_columns hv hr hc hs h ht hf hm hT hη
  have hη0 : 0 ≤ 3 * e + (2 * u + δ) := by linarith [hr.unit, hr.data, hr.solver]
  have hg : ∀ i j, |g i j - f i j| ≤ ε := fun i j => (h1 i j).trans (by
    rw [hε]
    exact mul_le_mul_of_nonneg_left (by linarith [hT i]) (by linarith))
  have hfj : f j j = 1 := by
    have hcl : IsClasses (fun i j => P i j) sccs := by
      have hreach := hc.reach hr.lt hP.1
      refine ⟨h.cover, h.nodup, h.ne_nil, h.disjoint, fun C hC i hi j => ?_⟩
      rw [h.mem_iff C hC i hi j]
      exact and_congr (hreach i j) (hreach j i)
    obtain ⟨cols', -, -, h3⟩ := visitColumns_spec hv hcl
    exact ((hf j).returnSystem hP (h3 j)).1 j hj ⟨Relation.ReflTransGen.refl, Relation.ReflTransGen.refl⟩
  rw [h2 i j]
  constructor
  · intro hfi
    rw [if_neg, if_pos]
    · unfold isclose
      rw [decide_eq_true_eq, abs_one]
      have h3 := hg j j
      rw [hfj] at h3
      refine h3.trans (hsmall.trans ?_)
      norm_num
    · intro hcl
      unfold isclose at hcl
      rw [decide_eq_true_eq, sub_zero, abs_zero, mul_zero, add_zero] at hcl
      have h4 := (abs_le.1 (hg i j)).1
      have h5 := (abs_le.1 hcl).2
      norm_num at h5 hfi
      linarith
  · intro hfi
    rw [if_pos]
    unfold isclose
    rw [decide_eq_true_eq, abs_zero, mul_zero, add_zero]
    have h3 := hg i j
    rw [hfi] at h3
    refine h3.trans (hsmall.trans ?_)
    norm_num

set_option linter.unusedSectionVars false in
/-- C175. Without rounding and with an exact solver this is the program of C82. -/
theorem C175_exact (c : MC K) (sccs : List (List (Fin c.n))) :
    meanNumberVisitsF id (fun _ => npSolve) c sccs = meanNumberVisits c sccs := by
  have h : ∀ (closed : Fin c.n → Bool) (j : Fin c.n), visitMatrixF id c.p closed j = visitMatrix c.p closed j := by
    intro closed j
    funext i k
    unfold visitMatrixF visitMatrix
    split
    · rfl
    · by_cases hk : k = i <;> simp [hk]
  unfold meanNumberVisitsF meanNumberVisits visitColumnsF visitColumns
  simp only [h]
  rfl

/-- A chain of doubles that leaves its first state with probability about 2/3. -/
def exOut : MC ℚ := ⟨2, !![binary64 (1 / 3), binary64 (2 / 3); 0, 1], ["a", "b"]⟩

/-- The exact probabilities of `exOut`. -/
def exOutP : Matrix (Fin 2) (Fin 2) ℚ := !![1 / 3, 2 / 3; 0, 1]

/-- The probabilities that a state is visited after the start. -/
def exOutF : Fin 2 → Fin 2 → ℚ := fun i j => !![1 / 3, 1; 0, 1] i j

/-- The hypotheses of `C175_visits` and `C175_infinite` can be met with a solver that rounds to doubles: the program returns
a result, and the mean number of visits of the first state is 1/2. -/
theorem C175_instance : (⟨2, exOutP, exOut.states⟩ : MC ℚ).Valid ∧ RoundedFrom (1 / 2 ^ 53) exOut.p exOutP ∧
    (roundedSolver binary64).Stable (1 / 2 ^ 52) ∧ IsClasses exOut.p ([[0], [1]] : List (List (Fin 2))) ∧
    (∀ j : Fin 2, IsReturnProbability (fun i k : Fin 2 => exOutP i k) j fun i => exOutF i j) ∧
    IsPassageTime (fun i j : Fin 2 => exOutP i j) (RecurrentState fun i j : Fin 2 => exOutP i j) ![3 / 2, 0] ∧
    exOutF 0 0 / (1 - exOutF 0 0) = 1 / 2 ∧ RecurrentState (fun i j : Fin 2 => exOutP i j) 1 ∧
    ∃ t, meanNumberVisitsF binary64 (roundedSolver binary64) exOut ([[0], [1]] : List (List (Fin 2))) = .ok t := by
  have hst : IsStochastic (fun i j : Fin 2 => exOutP i j) := by
    change (∀ i j : Fin 2, 0 ≤ (fun i j : Fin 2 => exOutP i j) i j) ∧ ∀ i : Fin 2, ∑ j, (fun i j : Fin 2 => exOutP i j) i j = 1
    decide +kernel
  refine ⟨by decide +kernel, ?_, C170_instance.2.1, ?_, fun j => ?_, ?_, by decide +kernel, by decide +kernel, ?_⟩
  · change ∀ i j : Fin 2, |(fun i j : Fin 2 => exOut.p i j) i j - (fun i j : Fin 2 => exOutP i j) i j| ≤
      1 / 2 ^ 53 * (fun i j : Fin 2 => exOutP i j) i j
    decide +kernel
  · change IsClasses (fun i j : Fin 2 => exOut.p i j) ([[0], [1]] : List (List (Fin 2)))
    decide +kernel
  · refine ReturnSystem.isReturnProbability hst ?_
    unfold ReturnSystem
    revert j
    decide +kernel
  · change (∀ i : Fin 2, RecurrentState (fun i j : Fin 2 => exOutP i j) i → (![3 / 2, 0] : Fin 2 → ℚ) i = 0) ∧
      ∀ i : Fin 2, ¬ RecurrentState (fun i j : Fin 2 => exOutP i j) i → (![3 / 2, 0] : Fin 2 → ℚ) i =
        1 + ∑ j, (fun i j : Fin 2 => exOutP i j) i j * (![3 / 2, 0] : Fin 2 → ℚ) j
    decide +kernel
  · have hd : ∀ j : Fin 2, (visitMatrixF binary64 exOut.p (closedState exOut.p ([[0], [1]] : List (List (Fin 2)))) j :
        Matrix (Fin 2) (Fin 2) ℚ).det ≠ 0 := by
      intro j
      rw [Matrix.det_fin_two]
      revert j
      decide +kernel
    have hsol : ∀ j : Fin exOut.n, ∃ t, roundedSolver binary64 exOut.n
        (visitMatrixF binary64 exOut.p (closedState exOut.p ([[0], [1]] : List (List (Fin 2)))) j)
        (visitRhs exOut.p (communicationMatrix exOut ([[0], [1]] : List (List (Fin 2))))
          (closedState exOut.p ([[0], [1]] : List (List (Fin 2)))) j) = some t :=
      fun j => roundedSolver_some binary64 (hd j) _
    choose x hx using hsol
    have hcols : visitColumnsF binary64 (roundedSolver binary64) exOut ([[0], [1]] : List (List (Fin 2))) =
        .ok ((List.finRange exOut.n).map x) := by
      unfold visitColumnsF
      refine mapM_R_eq_ok.2 (List.forall₂_map_right_iff.2 (List.forall₂_same.2 fun j _ => ?_))
      rw [hx j]
      rfl
    unfold meanNumberVisitsF
    rw [hcols]
    exact ⟨_, rfl⟩

end Verif
